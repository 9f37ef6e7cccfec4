import Verif.Camera.Quat
import Verif.Camera.CahvProps
import Mathlib.LinearAlgebra.Matrix.NonsingularInverse
import Mathlib.Tactic.IntervalCases

/-
C97.  Quaternions and rotations.
-/

namespace Verif.Camera

set_option linter.unusedSectionVars false

variable {K : Type} [Field K] [LinearOrder K] [IsStrictOrderedRing K]

/-- A rotation matrix: its rows are orthonormal and its determinant is 1. -/
def IsRot (m : M3 K) : Prop := m.mul m.transpose = M3.one ∧ m.det = 1

/-- **C97.** The matrix of a product is the product of the matrices. -/
theorem toM_mul (p q : Quat K) : (p.mul q).toM = p.toM.mul q.toM := by
  ext <;> simp only [Quat.toM, Quat.mul, M3.mul, M3.mulVec, M3.transpose, dot] <;> ring

/-- **C97.** The matrix of a quaternion is the square of its length times a rotation: for a unit quaternion a rotation. -/
theorem toM_rot (q : Quat K) : q.toM.mul q.toM.transpose = M3.smul (q.sq * q.sq) M3.one ∧ q.toM.det = q.sq * q.sq * q.sq ∧
    (q.sq = 1 → IsRot q.toM) := by
  have h1 : q.toM.mul q.toM.transpose = M3.smul (q.sq * q.sq) M3.one := by
    ext <;> simp only [Quat.toM, Quat.sq, M3.mul, M3.mulVec, M3.transpose, M3.smul, M3.one, dot, smul_x, smul_y, smul_z] <;> ring
  have h2 : q.toM.det = q.sq * q.sq * q.sq := by
    simp only [Quat.toM, Quat.sq, M3.det, dot, cross]; ring
  refine ⟨h1, h2, fun h => ⟨?_, ?_⟩⟩
  · rw [h1, h]; ext <;> simp [M3.smul, M3.one]
  · rw [h2, h]; ring

/-- **C97.** Rotating a vector is the product with the matrix, over the square of the length; only the zero quaternion does
not rotate. -/
theorem rotate_spec (q : Quat K) (v : V3 K) : (q.rotate v = none ↔ q.sq = 0) ∧
    (q.sq ≠ 0 → q.rotate v = some ((1 / q.sq) * q.toM.mulVec v)) ∧ (q.sq = 1 → q.rotate v = some (q.toM.mulVec v)) := by
  have h1 : q.sq ≠ 0 → q.rotate v = some ((1 / q.sq) * q.toM.mulVec v) := by
    intro h
    unfold Quat.rotate Quat.inv
    rw [if_neg h]
    simp only [Option.map_some, Option.some.injEq]
    ext
    · simp only [Quat.imag, Quat.mul, Quat.scale, Quat.conj, Quat.toM, M3.mulVec, dot, smul_x]; ring
    · simp only [Quat.imag, Quat.mul, Quat.scale, Quat.conj, Quat.toM, M3.mulVec, dot, smul_y]; ring
    · simp only [Quat.imag, Quat.mul, Quat.scale, Quat.conj, Quat.toM, M3.mulVec, dot, smul_z]; ring
  refine ⟨⟨fun h => ?_, fun h => ?_⟩, h1, fun h => ?_⟩
  · by_contra hne; rw [h1 hne] at h; cases h
  · unfold Quat.rotate Quat.inv; rw [if_pos h]; rfl
  · rw [h1 (by rw [h]; exact one_ne_zero), h]
    congr 1; ext <;> simp

/-- **C97.** The inverse turns the rotation around: for a unit quaternion its matrix is the transpose. -/
theorem inv_spec (q i : Quat K) (h : q.inv = some i) :
    q.mul i = ⟨1, 0, 0, 0⟩ ∧ i.mul q = ⟨1, 0, 0, 0⟩ ∧ (q.sq = 1 → i.toM = q.toM.transpose) := by
  unfold Quat.inv at h
  by_cases h0 : q.sq = 0
  · rw [if_pos h0] at h; cases h
  · rw [if_neg h0] at h
    simp only [Option.some.injEq] at h
    subst h
    have hk : (1 / q.sq) * q.sq = 1 := by field_simp
    refine ⟨?_, ?_, fun h1 => ?_⟩
    · generalize 1 / q.sq = k at hk ⊢
      unfold Quat.sq at hk
      ext <;> simp only [Quat.mul, Quat.scale, Quat.conj] <;> first | linear_combination hk | ring
    · generalize 1 / q.sq = k at hk ⊢
      unfold Quat.sq at hk
      ext <;> simp only [Quat.mul, Quat.scale, Quat.conj] <;> first | linear_combination hk | ring
    · rw [h1]; ext <;> simp only [Quat.toM, Quat.scale, Quat.conj, M3.transpose] <;> ring

/-! ## From matrices -/

/-- The identities of rotation matrices. -/
structure RotIds (m : M3 K) : Prop where
  c0 : m.r0.x = m.r1.y * m.r2.z - m.r1.z * m.r2.y
  c1 : m.r0.y = m.r1.z * m.r2.x - m.r1.x * m.r2.z
  c2 : m.r0.z = m.r1.x * m.r2.y - m.r1.y * m.r2.x
  c3 : m.r1.x = m.r2.y * m.r0.z - m.r2.z * m.r0.y
  c4 : m.r1.y = m.r2.z * m.r0.x - m.r2.x * m.r0.z
  c5 : m.r1.z = m.r2.x * m.r0.y - m.r2.y * m.r0.x
  c6 : m.r2.x = m.r0.y * m.r1.z - m.r0.z * m.r1.y
  c7 : m.r2.y = m.r0.z * m.r1.x - m.r0.x * m.r1.z
  c8 : m.r2.z = m.r0.x * m.r1.y - m.r0.y * m.r1.x
  n0 : m.r0.x * m.r0.x + m.r0.y * m.r0.y + m.r0.z * m.r0.z = 1
  n1 : m.r1.x * m.r1.x + m.r1.y * m.r1.y + m.r1.z * m.r1.z = 1
  n2 : m.r2.x * m.r2.x + m.r2.y * m.r2.y + m.r2.z * m.r2.z = 1
  m0 : m.r0.x * m.r0.x + m.r1.x * m.r1.x + m.r2.x * m.r2.x = 1
  m1 : m.r0.y * m.r0.y + m.r1.y * m.r1.y + m.r2.y * m.r2.y = 1
  m2 : m.r0.z * m.r0.z + m.r1.z * m.r1.z + m.r2.z * m.r2.z = 1
  o01 : m.r0.x * m.r1.x + m.r0.y * m.r1.y + m.r0.z * m.r1.z = 0
  o02 : m.r0.x * m.r2.x + m.r0.y * m.r2.y + m.r0.z * m.r2.z = 0
  o12 : m.r1.x * m.r2.x + m.r1.y * m.r2.y + m.r1.z * m.r2.z = 0
  p01 : m.r0.x * m.r0.y + m.r1.x * m.r1.y + m.r2.x * m.r2.y = 0
  p02 : m.r0.x * m.r0.z + m.r1.x * m.r1.z + m.r2.x * m.r2.z = 0
  p12 : m.r0.y * m.r0.z + m.r1.y * m.r1.z + m.r2.y * m.r2.z = 0

/-- Three orthonormal vectors with volume 1: each is the product of the other two. -/
theorem cross_of_rot (a b c : V3 K) (ha : sq a = 1) (hb : sq b = 1) (hc : sq c = 1) (hab : dot a b = 0) (hd : dot a (cross b c) = 1) :
    c = cross a b := by
  have : sq (cross a b - c) = 0 := by
    have e : sq (cross a b - c) = sq a * sq b - dot a b * dot a b + sq c - 2 * dot a (cross b c) := by
      simp only [sq, dot, cross, sub_x, sub_y, sub_z]; ring
    rw [e, ha, hb, hc, hab, hd]; ring
  have h := (sq_eq_zero _).1 this
  have hx := congrArg V3.x h; have hy := congrArg V3.y h; have hz := congrArg V3.z h
  simp only [sub_x, sub_y, sub_z, zero_x, zero_y, zero_z] at hx hy hz
  exact V3.ext (by linarith) (by linarith) (by linarith)

/-- The matrix of Mathlib. -/
def toMx (m : M3 K) : Matrix (Fin 3) (Fin 3) K :=
  !![m.r0.x, m.r0.y, m.r0.z; m.r1.x, m.r1.y, m.r1.z; m.r2.x, m.r2.y, m.r2.z]

theorem toMx_mul (a b : M3 K) : toMx (a.mul b) = toMx a * toMx b := by
  ext i j
  fin_cases i <;> fin_cases j <;>
    simp [toMx, M3.mul, M3.mulVec, M3.transpose, dot, Matrix.mul_apply, Fin.sum_univ_three] <;> ring

theorem toMx_one : toMx (M3.one : M3 K) = 1 := by
  ext i j
  fin_cases i <;> fin_cases j <;> simp [toMx, M3.one]

theorem toMx_inj (a b : M3 K) (h : toMx a = toMx b) : a = b := by
  have e : ∀ i j, toMx a i j = toMx b i j := fun i j => by rw [h]
  ext
  · exact e 0 0
  · exact e 0 1
  · exact e 0 2
  · exact e 1 0
  · exact e 1 1
  · exact e 1 2
  · exact e 2 0
  · exact e 2 1
  · exact e 2 2

/-- One-sided inverses of square matrices are two-sided. -/
theorem M3.mul_one_comm (a b : M3 K) (h : a.mul b = M3.one) : b.mul a = M3.one := by
  apply toMx_inj
  have := congrArg toMx h
  rw [toMx_mul, toMx_one] at this
  rw [toMx_mul, toMx_one]
  exact mul_eq_one_comm.1 this

theorem rotIds (m : M3 K) (h : IsRot m) : RotIds m := by
  obtain ⟨h1, hd⟩ := h
  have h2 := M3.mul_one_comm _ _ h1
  obtain ⟨⟨a, b, c⟩, ⟨d, e, f⟩, ⟨g, h, i⟩⟩ := m
  simp only [M3.mul, M3.mulVec, M3.transpose, M3.one, dot, M3.mk.injEq, V3.mk.injEq] at h1 h2
  obtain ⟨⟨n0, -, -⟩, ⟨o01, n1, -⟩, ⟨o02, o12, n2⟩⟩ := h1
  obtain ⟨⟨m0, -, -⟩, ⟨p01, m1, -⟩, ⟨p02, p12, m2⟩⟩ := h2
  simp only [M3.det, dot, cross] at hd
  have k2 := cross_of_rot ⟨a, b, c⟩ ⟨d, e, f⟩ ⟨g, h, i⟩ n0 n1 n2 o01 hd
  have k0 := cross_of_rot ⟨d, e, f⟩ ⟨g, h, i⟩ ⟨a, b, c⟩ n1 n2 n0 o12 (by rw [← hd]; simp only [dot, cross]; ring)
  have k1 := cross_of_rot ⟨g, h, i⟩ ⟨a, b, c⟩ ⟨d, e, f⟩ n2 n0 n1 (by rw [← o02]; simp only [dot]; ring)
    (by rw [← hd]; simp only [dot, cross]; ring)
  simp only [cross, V3.mk.injEq] at k0 k1 k2
  exact ⟨k0.1, k0.2.1, k0.2.2, k1.1, k1.2.1, k1.2.2, k2.1, k2.2.1, k2.2.2, n0, n1, n2, m0, m1, m2, o01, o02, o12, p01, p02, p12⟩

/-- A rotation does not change lengths and angles. -/
theorem rot_dot (m : M3 K) (h : IsRot m) (u v : V3 K) : dot (m.mulVec u) (m.mulVec v) = dot u v := by
  obtain ⟨-, -, -, -, -, -, -, -, -, -, -, -, m0, m1, m2, -, -, -, p01, p02, p12⟩ := rotIds m h
  simp only [M3.mulVec, dot]
  linear_combination u.x * v.x * m0 + u.y * v.y * m1 + u.z * v.z * m2 + (u.x * v.y + u.y * v.x) * p01 +
    (u.x * v.z + u.z * v.x) * p02 + (u.y * v.z + u.z * v.y) * p12

/-- What the products of the four numbers have to be. -/
structure Prods (q : Quat K) (m : M3 K) : Prop where
  ww : 4 * (q.w * q.w) = 1 + m.r0.x + m.r1.y + m.r2.z
  xx : 4 * (q.x * q.x) = 1 + m.r0.x - m.r1.y - m.r2.z
  yy : 4 * (q.y * q.y) = 1 - m.r0.x + m.r1.y - m.r2.z
  zz : 4 * (q.z * q.z) = 1 - m.r0.x - m.r1.y + m.r2.z
  wx : 4 * (q.w * q.x) = m.r2.y - m.r1.z
  wy : 4 * (q.w * q.y) = m.r0.z - m.r2.x
  wz : 4 * (q.w * q.z) = m.r1.x - m.r0.y
  xy : 4 * (q.x * q.y) = m.r0.y + m.r1.x
  xz : 4 * (q.x * q.z) = m.r0.z + m.r2.x
  yz : 4 * (q.y * q.z) = m.r1.z + m.r2.y

theorem prods_spec (q : Quat K) (m : M3 K) (h : Prods q m) : q.toM = m ∧ q.sq = 1 := by
  obtain ⟨ww, xx, yy, zz, wx, wy, wz, xy, xz, yz⟩ := h
  constructor
  · ext <;> simp only [Quat.toM] <;> linarith
  · unfold Quat.sq; linarith

theorem maxOf_cases (a b c d : K) : (maxOf a b c d = a ∨ maxOf a b c d = b ∨ maxOf a b c d = c ∨ maxOf a b c d = d) ∧
    a ≤ maxOf a b c d ∧ b ≤ maxOf a b c d ∧ c ≤ maxOf a b c d ∧ d ≤ maxOf a b c d := by
  unfold maxOf
  simp only
  by_cases h1 : a < b
  · rw [if_pos h1]
    by_cases h2 : b < c
    · rw [if_pos h2]
      by_cases h3 : c < d
      · rw [if_pos h3]; exact ⟨by tauto, by linarith, by linarith, by linarith, le_rfl⟩
      · rw [if_neg h3]; exact ⟨by tauto, by linarith, by linarith, by linarith, by linarith⟩
    · rw [if_neg h2]
      by_cases h3 : b < d
      · rw [if_pos h3]; exact ⟨by tauto, by linarith, by linarith, by linarith, le_rfl⟩
      · rw [if_neg h3]; exact ⟨by tauto, by linarith, by linarith, by linarith, by linarith⟩
  · rw [if_neg h1]
    by_cases h2 : a < c
    · rw [if_pos h2]
      by_cases h3 : c < d
      · rw [if_pos h3]; exact ⟨by tauto, by linarith, by linarith, by linarith, le_rfl⟩
      · rw [if_neg h3]; exact ⟨by tauto, by linarith, by linarith, by linarith, by linarith⟩
    · rw [if_neg h2]
      by_cases h3 : a < d
      · rw [if_pos h3]; exact ⟨by tauto, by linarith, by linarith, by linarith, le_rfl⟩
      · rw [if_neg h3]; exact ⟨by tauto, by linarith, by linarith, by linarith, by linarith⟩

/-- The square root that is divided by: for every matrix it is at least 2. -/
theorem ofM_sqrt {sqrt : K → K} (hs : IsSqrt sqrt) (x : K) (hx : 1 ≤ x) : 0 < sqrt (x * 4) ∧ sqrt (x * 4) * sqrt (x * 4) = 4 * x := by
  obtain ⟨h0, h1⟩ := hs (x * 4) (by linarith)
  refine ⟨?_, by rw [h1]; ring⟩
  rcases h0.lt_or_eq with h | h
  · exact h
  · rw [← h] at h1; linarith

/-- **C97.** Going from a rotation matrix to the quaternion and back gives the matrix, and the quaternion is a unit. -/
theorem ofM_toM (sqrt : K → K) (hs : IsSqrt sqrt) (m : M3 K) (h : IsRot m) :
    (Quat.ofM sqrt m).toM = m ∧ (Quat.ofM sqrt m).sq = 1 := by
  apply prods_spec
  obtain ⟨c0, c1, c2, c3, c4, c5, c6, c7, c8, n0, n1, n2, m0, m1, m2, o01, o02, o12, p01, p02, p12⟩ := rotIds m h
  obtain ⟨⟨a, b, c⟩, ⟨d, e, f⟩, ⟨g, h, i⟩⟩ := m
  simp only at *
  unfold Quat.ofM
  simp only
  obtain ⟨hc, h1, h2, h3, h4⟩ := maxOf_cases (1 + a + e + i) (1 + a - e - i) (1 - a + e - i) (1 - a - e + i)
  by_cases e1 : 1 + a + e + i = maxOf (1 + a + e + i) (1 + a - e - i) (1 - a + e - i) (1 - a - e + i)
  · rw [if_pos e1]
    obtain ⟨s0, s1⟩ := ofM_sqrt hs (1 + a + e + i) (by linarith)
    generalize sqrt ((1 + a + e + i) * 4) = s at *
    have s' := s0.ne'
    have div : ∀ x y z : K, x * y = (1 + a + e + i) * z → 4 * (x / s * (y / s)) = z := by
      intro x y z hxyz
      have hne : (1 + a + e + i) ≠ 0 := by intro h0; rw [h0] at s1; exact s' (mul_self_eq_zero.1 (by linarith))
      rw [div_mul_div_comm, s1, hxyz]; field_simp
    refine ⟨by field_simp; linarith, div _ _ _ ?_, div _ _ _ ?_, div _ _ _ ?_, by field_simp, by field_simp, by field_simp,
      div _ _ _ ?_, div _ _ _ ?_, div _ _ _ ?_⟩ <;> clear s0 s1 s' div h1 h2 h3 h4 hc e1 hs <;> grind
  · rw [if_neg e1]
    by_cases e2 : 1 + a - e - i = maxOf (1 + a + e + i) (1 + a - e - i) (1 - a + e - i) (1 - a - e + i)
    · rw [if_pos e2]
      obtain ⟨s0, s1⟩ := ofM_sqrt hs (1 + a - e - i) (by linarith)
      generalize sqrt ((1 + a - e - i) * 4) = s at *
      have s' := s0.ne'
      have div : ∀ x y z : K, x * y = (1 + a - e - i) * z → 4 * (x / s * (y / s)) = z := by
        intro x y z hxyz
        have hne : (1 + a - e - i) ≠ 0 := by intro h0; rw [h0] at s1; exact s' (mul_self_eq_zero.1 (by linarith))
        rw [div_mul_div_comm, s1, hxyz]; field_simp
      refine ⟨div _ _ _ ?_, by field_simp; linarith, div _ _ _ ?_, div _ _ _ ?_, by field_simp, div _ _ _ ?_, div _ _ _ ?_,
        by field_simp, by field_simp, div _ _ _ ?_⟩ <;> clear s0 s1 s' div h1 h2 h3 h4 hc e1 e2 hs <;> grind
    · rw [if_neg e2]
      by_cases e3 : 1 - a + e - i = maxOf (1 + a + e + i) (1 + a - e - i) (1 - a + e - i) (1 - a - e + i)
      · rw [if_pos e3]
        obtain ⟨s0, s1⟩ := ofM_sqrt hs (1 - a + e - i) (by linarith)
        generalize sqrt ((1 - a + e - i) * 4) = s at *
        have s' := s0.ne'
        have div : ∀ x y z : K, x * y = (1 - a + e - i) * z → 4 * (x / s * (y / s)) = z := by
          intro x y z hxyz
          have hne : (1 - a + e - i) ≠ 0 := by intro h0; rw [h0] at s1; exact s' (mul_self_eq_zero.1 (by linarith))
          rw [div_mul_div_comm, s1, hxyz]; field_simp
        refine ⟨div _ _ _ ?_, div _ _ _ ?_, by field_simp; linarith, div _ _ _ ?_, div _ _ _ ?_, by field_simp, div _ _ _ ?_,
          by field_simp, div _ _ _ ?_, by field_simp⟩ <;> clear s0 s1 s' div h1 h2 h3 h4 hc e1 e2 e3 hs <;> grind
      · rw [if_neg e3]
        have e4 : 1 - a - e + i = maxOf (1 + a + e + i) (1 + a - e - i) (1 - a + e - i) (1 - a - e + i) := by
          rcases hc with h | h | h | h
          · exact absurd h.symm e1
          · exact absurd h.symm e2
          · exact absurd h.symm e3
          · exact h.symm
        obtain ⟨s0, s1⟩ := ofM_sqrt hs (1 - a - e + i) (by linarith)
        generalize sqrt ((1 - a - e + i) * 4) = s at *
        have s' := s0.ne'
        have div : ∀ x y z : K, x * y = (1 - a - e + i) * z → 4 * (x / s * (y / s)) = z := by
          intro x y z hxyz
          have hne : (1 - a - e + i) ≠ 0 := by intro h0; rw [h0] at s1; exact s' (mul_self_eq_zero.1 (by linarith))
          rw [div_mul_div_comm, s1, hxyz]; field_simp
        refine ⟨div _ _ _ ?_, div _ _ _ ?_, div _ _ _ ?_, by field_simp; linarith, div _ _ _ ?_, div _ _ _ ?_, by field_simp,
          div _ _ _ ?_, by field_simp, by field_simp⟩ <;> clear s0 s1 s' div h1 h2 h3 h4 hc e1 e2 e3 e4 hs <;> grind

/-- Two quaternions with the same matrix are equal or opposite. -/
theorem toM_inj (p q : Quat K) (h : p.toM = q.toM) (hp : p.sq = q.sq) : p = q ∨ p = q.neg := by
  obtain ⟨a, b, c, d⟩ := p
  obtain ⟨e, f, g, i⟩ := q
  simp only [Quat.toM, Quat.sq, M3.mk.injEq, V3.mk.injEq, Quat.mk.injEq, Quat.neg] at *
  obtain ⟨⟨h00, h01, h02⟩, ⟨h10, h11, h12⟩, ⟨h20, h21, h22⟩⟩ := h
  have e1 : a * a = e * e := by linarith
  have e2 : b * b = f * f := by linarith
  have e3 : c * c = g * g := by linarith
  have e4 : d * d = i * i := by linarith
  have f1 : a * b = e * f := by linarith
  have f2 : a * c = e * g := by linarith
  have f3 : a * d = e * i := by linarith
  have f4 : b * c = f * g := by linarith
  have f5 : b * d = f * i := by linarith
  have f6 : c * d = g * i := by linarith
  clear h00 h01 h02 h10 h11 h12 h20 h21 h22 hp
  have main : ∀ (a b c d e f g i : K), a ≠ 0 → a * a = e * e → a * b = e * f → a * c = e * g → a * d = e * i →
      (a = e ∧ b = f ∧ c = g ∧ d = i) ∨ (a = -e ∧ b = -f ∧ c = -g ∧ d = -i) := by
    intro a b c d e f g i ha e1 f1 f2 f3
    rcases mul_self_eq_mul_self_iff.1 e1 with h | h
    · left
      subst h
      exact ⟨rfl, mul_left_cancel₀ ha f1, mul_left_cancel₀ ha f2, mul_left_cancel₀ ha f3⟩
    · right
      refine ⟨h, mul_left_cancel₀ ha ?_, mul_left_cancel₀ ha ?_, mul_left_cancel₀ ha ?_⟩
      · rw [f1, h]; ring
      · rw [f2, h]; ring
      · rw [f3, h]; ring
  by_cases ha : a = 0
  · by_cases hb : b = 0
    · by_cases hc : c = 0
      · have he : e = 0 := mul_self_eq_zero.1 (by rw [← e1, ha, mul_zero])
        have hf : f = 0 := mul_self_eq_zero.1 (by rw [← e2, hb, mul_zero])
        have hg : g = 0 := mul_self_eq_zero.1 (by rw [← e3, hc, mul_zero])
        rcases mul_self_eq_mul_self_iff.1 e4 with h | h
        · left; exact ⟨by rw [ha, he], by rw [hb, hf], by rw [hc, hg], h⟩
        · right; exact ⟨by rw [ha, he, neg_zero], by rw [hb, hf, neg_zero], by rw [hc, hg, neg_zero], h⟩
      · rcases main c a b d g e f i hc e3 (by linarith) (by linarith) f6 with h | h
        · left; exact ⟨h.2.1, h.2.2.1, h.1, h.2.2.2⟩
        · right; exact ⟨h.2.1, h.2.2.1, h.1, h.2.2.2⟩
    · rcases main b a c d f e g i hb e2 (by linarith) f4 f5 with h | h
      · left; exact ⟨h.2.1, h.1, h.2.2.1, h.2.2.2⟩
      · right; exact ⟨h.2.1, h.1, h.2.2.1, h.2.2.2⟩
  · exact main a b c d e f g i ha e1 f1 f2 f3

/-- **C97.** Going from a unit quaternion to the matrix and back gives the quaternion or its opposite. -/
theorem toM_ofM (sqrt : K → K) (hs : IsSqrt sqrt) (q : Quat K) (h : q.sq = 1) :
    Quat.ofM sqrt q.toM = q ∨ Quat.ofM sqrt q.toM = q.neg := by
  obtain ⟨h1, h2⟩ := ofM_toM sqrt hs q.toM ((toM_rot q).2.2 h)
  exact toM_inj _ _ h1 (by rw [h2, h])

/-- **C97.** A matrix that is not a rotation does not come back; nothing is reported: minus the identity. -/
theorem ofM_reflection : (Quat.ofM Real.sqrt (⟨⟨-1, 0, 0⟩, ⟨0, -1, 0⟩, ⟨0, 0, -1⟩⟩ : M3 ℝ)).toM ≠ ⟨⟨-1, 0, 0⟩, ⟨0, -1, 0⟩, ⟨0, 0, -1⟩⟩ := by
  intro h
  have hd := (toM_rot (Quat.ofM Real.sqrt (⟨⟨-1, 0, 0⟩, ⟨0, -1, 0⟩, ⟨0, 0, -1⟩⟩ : M3 ℝ))).2.1
  rw [h] at hd
  have hnn : 0 ≤ (Quat.ofM Real.sqrt (⟨⟨-1, 0, 0⟩, ⟨0, -1, 0⟩, ⟨0, 0, -1⟩⟩ : M3 ℝ)).sq := by
    unfold Quat.sq
    nlinarith [mul_self_nonneg (Quat.ofM Real.sqrt (⟨⟨-1, 0, 0⟩, ⟨0, -1, 0⟩, ⟨0, 0, -1⟩⟩ : M3 ℝ)).w, mul_self_nonneg (Quat.ofM Real.sqrt (⟨⟨-1, 0, 0⟩, ⟨0, -1, 0⟩, ⟨0, 0, -1⟩⟩ : M3 ℝ)).x,
      mul_self_nonneg (Quat.ofM Real.sqrt (⟨⟨-1, 0, 0⟩, ⟨0, -1, 0⟩, ⟨0, 0, -1⟩⟩ : M3 ℝ)).y, mul_self_nonneg (Quat.ofM Real.sqrt (⟨⟨-1, 0, 0⟩, ⟨0, -1, 0⟩, ⟨0, 0, -1⟩⟩ : M3 ℝ)).z]
  have : (⟨⟨-1, 0, 0⟩, ⟨0, -1, 0⟩, ⟨0, 0, -1⟩⟩ : M3 ℝ).det = -1 := by norm_num [M3.det, dot, cross]
  rw [this] at hd
  have : 0 ≤ (Quat.ofM Real.sqrt (⟨⟨-1, 0, 0⟩, ⟨0, -1, 0⟩, ⟨0, 0, -1⟩⟩ : M3 ℝ)).sq * (Quat.ofM Real.sqrt (⟨⟨-1, 0, 0⟩, ⟨0, -1, 0⟩, ⟨0, 0, -1⟩⟩ : M3 ℝ)).sq *
    (Quat.ofM Real.sqrt (⟨⟨-1, 0, 0⟩, ⟨0, -1, 0⟩, ⟨0, 0, -1⟩⟩ : M3 ℝ)).sq := by positivity
  linarith

/-- **C97.** No matrix with a negative determinant comes back. -/
theorem ofM_det_neg (sqrt : K → K) (m : M3 K) (h : m.det < 0) : (Quat.ofM sqrt m).toM ≠ m := by
  intro e
  have hd := (toM_rot (Quat.ofM sqrt m)).2.1
  rw [e] at hd
  generalize Quat.ofM sqrt m = q at *
  have hnn : 0 ≤ q.sq := by
    unfold Quat.sq
    nlinarith [mul_self_nonneg q.w, mul_self_nonneg q.x, mul_self_nonneg q.y, mul_self_nonneg q.z]
  have : 0 ≤ q.sq * q.sq * q.sq := by positivity
  linarith

end Verif.Camera
