import Verif.Camera.Cahv
import Mathlib.Analysis.SpecialFunctions.Complex.Arg
import Mathlib.Analysis.SpecialFunctions.Trigonometric.Inverse

/-
Model of src/vw/Math/Quaternion.{h,cc}.  Numbers are exact; a division by zero is a missing value.
-/

namespace Verif.Camera

/-- `Matrix<double,3,3>`, by rows. -/
@[ext] structure M3 (K : Type) where
  r0 : V3 K
  r1 : V3 K
  r2 : V3 K
  deriving DecidableEq

section ring
variable {K : Type} [CommRing K]

/-- The product of a matrix and a vector. -/
def M3.mulVec (m : M3 K) (v : V3 K) : V3 K := ⟨dot m.r0 v, dot m.r1 v, dot m.r2 v⟩

/-- `transpose`. -/
def M3.transpose (m : M3 K) : M3 K := ⟨⟨m.r0.x, m.r1.x, m.r2.x⟩, ⟨m.r0.y, m.r1.y, m.r2.y⟩, ⟨m.r0.z, m.r1.z, m.r2.z⟩⟩

/-- The product of two matrices. -/
def M3.mul (a b : M3 K) : M3 K :=
  ⟨b.transpose.mulVec a.r0, b.transpose.mulVec a.r1, b.transpose.mulVec a.r2⟩

/-- The identity. -/
def M3.one : M3 K := ⟨⟨1, 0, 0⟩, ⟨0, 1, 0⟩, ⟨0, 0, 1⟩⟩

/-- The product with a number. -/
def M3.smul (s : K) (m : M3 K) : M3 K := ⟨s * m.r0, s * m.r1, s * m.r2⟩

/-- The sum. -/
def M3.add (a b : M3 K) : M3 K := ⟨a.r0 + b.r0, a.r1 + b.r1, a.r2 + b.r2⟩

/-- `det` (for 3 by 3 matrices: the value proved for `VW.Matrix.det`). -/
def M3.det (m : M3 K) : K := dot m.r0 (cross m.r1 m.r2)

/-- `Quaternion`. -/
@[ext] structure Quat (K : Type) where
  w : K
  x : K
  y : K
  z : K
  deriving DecidableEq

/-- `imag` (src/vw/Math/Quaternion.h:66-69). -/
def Quat.imag (q : Quat K) : V3 K := ⟨q.x, q.y, q.z⟩

/-- The sum of the squares: boost's `norm`. -/
def Quat.sq (q : Quat K) : K := q.w * q.w + q.x * q.x + q.y * q.y + q.z * q.z

/-- boost's `conj`. -/
def Quat.conj (q : Quat K) : Quat K := ⟨q.w, -q.x, -q.y, -q.z⟩

/-- boost's product. -/
def Quat.mul (a b : Quat K) : Quat K :=
  ⟨a.w * b.w - a.x * b.x - a.y * b.y - a.z * b.z, a.w * b.x + a.x * b.w + a.y * b.z - a.z * b.y,
   a.w * b.y - a.x * b.z + a.y * b.w + a.z * b.x, a.w * b.z + a.x * b.y - a.y * b.x + a.z * b.w⟩

/-- Negation. -/
def Quat.neg (q : Quat K) : Quat K := ⟨-q.w, -q.x, -q.y, -q.z⟩

/-- `rotation_matrix` (src/vw/Math/Quaternion.h:314-329). -/
def Quat.toM (q : Quat K) : M3 K :=
  let w2 := q.w * q.w; let x2 := q.x * q.x; let y2 := q.y * q.y; let z2 := q.z * q.z
  let wx := q.w * q.x; let wy := q.w * q.y; let wz := q.w * q.z
  let xy := q.x * q.y; let yz := q.y * q.z; let zx := q.z * q.x
  ⟨⟨w2 + x2 - y2 - z2, 2 * (xy - wz), 2 * (zx + wy)⟩, ⟨2 * (xy + wz), w2 - x2 + y2 - z2, 2 * (yz - wx)⟩,
   ⟨2 * (zx - wy), 2 * (yz + wx), w2 - x2 - y2 + z2⟩⟩

end ring

section field
variable {K : Type} [Field K] [LinearOrder K]

/-- The product with a number. -/
def Quat.scale (s : K) (q : Quat K) : Quat K := ⟨s * q.w, s * q.x, s * q.y, s * q.z⟩

/-- `inverse` (src/vw/Math/Quaternion.h:91-94). -/
def Quat.inv (q : Quat K) : Option (Quat K) := if q.sq = 0 then none else some (Quat.scale (1 / q.sq) q.conj)

/-- `normalize` (src/vw/Math/Quaternion.h:447-450). -/
def Quat.normalize (sqrt : K → K) (q : Quat K) : Option (Quat K) :=
  if q.sq = 0 then none else some (Quat.scale (1 / sqrt q.sq) q)

/-- `rotate` (src/vw/Math/Quaternion.h:344-348); boost's quotient is the product with the conjugate over the norm. -/
def Quat.rotate (q : Quat K) (v : V3 K) : Option (V3 K) :=
  q.inv.map (fun i => ((q.mul ⟨0, v.x, v.y, v.z⟩).mul i).imag)

/-- The largest of the four sums (src/vw/Math/Quaternion.h:214-223). -/
def maxOf (ww xx yy zz : K) : K :=
  let m := ww
  let m := if m < xx then xx else m
  let m := if m < yy then yy else m
  if m < zz then zz else m

/-- The constructor from a matrix (src/vw/Math/Quaternion.h:211-252). -/
def Quat.ofM (sqrt : K → K) (m : M3 K) : Quat K :=
  let d0 := m.r0.x; let d1 := m.r1.y; let d2 := m.r2.z
  let ww := 1 + d0 + d1 + d2
  let xx := 1 + d0 - d1 - d2
  let yy := 1 - d0 + d1 - d2
  let zz := 1 - d0 - d1 + d2
  let mx := maxOf ww xx yy zz
  if ww = mx then
    let w4 := sqrt (ww * 4)
    ⟨w4 / 4, (m.r2.y - m.r1.z) / w4, (m.r0.z - m.r2.x) / w4, (m.r1.x - m.r0.y) / w4⟩
  else if xx = mx then
    let x4 := sqrt (xx * 4)
    ⟨(m.r2.y - m.r1.z) / x4, x4 / 4, (m.r0.y + m.r1.x) / x4, (m.r0.z + m.r2.x) / x4⟩
  else if yy = mx then
    let y4 := sqrt (yy * 4)
    ⟨(m.r0.z - m.r2.x) / y4, (m.r0.y + m.r1.x) / y4, y4 / 4, (m.r1.z + m.r2.y) / y4⟩
  else
    let z4 := sqrt (zz * 4)
    ⟨(m.r1.x - m.r0.y) / z4, (m.r0.z + m.r2.x) / z4, (m.r1.z + m.r2.y) / z4, z4 / 4⟩

end field

/-! ## Axis and angle -/

/-- `atan2(y, x)`: the angle of the point; 0 at the origin. -/
noncomputable def atan2 (y x : ℝ) : ℝ := Complex.arg ⟨x, y⟩

/-- The constructor from axis and angle (src/vw/Math/Quaternion.h:261-268). -/
noncomputable def Quat.ofAxis (axis : V3 ℝ) (angle : ℝ) : Quat ℝ :=
  let ha := angle * (1 / 2)
  let s := Real.sin ha
  ⟨Real.cos ha, s * axis.x, s * axis.y, s * axis.z⟩

/-- `axis_angle` (src/vw/Math/Quaternion.h:288-312): axis times angle; `eps` is the 1e-10. -/
noncomputable def Quat.axisAngle (eps : ℝ) (q : Quat ℝ) : V3 ℝ :=
  let n := norm Real.sqrt q.imag
  let angle := 2 * atan2 n q.w
  let axis : V3 ℝ := if |n| < eps then ⟨1, 0, 0⟩ else (1 / n) * q.imag
  angle * axis

/-- `axis_angle_to_quaternion` (src/vw/Math/Quaternion.h:500-510). -/
noncomputable def axisAngleToQuat (v : V3 ℝ) : Quat ℝ :=
  let n := norm Real.sqrt v
  if n ≠ 0 then Quat.ofAxis ((1 / n) * v) n else ⟨1, 0, 0, 0⟩

/-- `axis_angle_to_matrix` (src/vw/Math/Quaternion.h:513-534). -/
noncomputable def axisAngleToM (v : V3 ℝ) : M3 ℝ :=
  let theta := norm Real.sqrt v
  let r := (1 / theta) * v
  if theta ≠ 0 then
    let m : M3 ℝ := ⟨⟨0, -r.z, r.y⟩, ⟨r.z, 0, -r.x⟩, ⟨-r.y, r.x, 0⟩⟩
    let rr : M3 ℝ := ⟨r.x * r, r.y * r, r.z * r⟩
    M3.add (M3.add (M3.smul (Real.cos theta) M3.one) (M3.smul (1 - Real.cos theta) rr)) (M3.smul (Real.sin theta) m)
  else M3.one

/-- `matrix_to_axis_angle` (src/vw/Math/Quaternion.h:536-545). -/
noncomputable def mToAxisAngle (eps : ℝ) (m : M3 ℝ) : V3 ℝ :=
  let res := (Quat.ofM Real.sqrt m).axisAngle eps
  if res.x < 0 ∧ res.y < 0 ∧ res.z < 0 then res - (2 * Real.pi) * ((1 / norm Real.sqrt res) * res) else res

/-! ## Interpolation -/

/-- `slerp` (src/vw/Math/Quaternion.cc:23-63); `eps` is the 1e-6. -/
noncomputable def slerp (eps alpha : ℝ) (a b : Quat ℝ) (spin : ℤ) : Quat ℝ :=
  let cosT := a.x * b.x + a.y * b.y + a.z * b.z + a.w * b.w
  let bflip := decide (cosT < 0)
  let cosT := if bflip then -cosT else cosT
  let ba : ℝ × ℝ :=
    if 1 - cosT < eps then (1 - alpha, alpha)
    else
      let theta := Real.arccos cosT
      let phi := theta + spin * Real.pi
      let sinT := Real.sin theta
      (Real.sin (theta - alpha * phi) / sinT, Real.sin (alpha * phi) / sinT)
  let beta := ba.1
  let alpha := if bflip then -ba.2 else ba.2
  ⟨beta * a.w + alpha * b.w, beta * a.x + alpha * b.x, beta * a.y + alpha * b.y, beta * a.z + alpha * b.z⟩

/-- `slerp_n` (src/vw/Math/Quaternion.cc:65-97), for as many weights as quaternions; no value: an assertion fails; `tol` is
the 1e-6 of the check of the weights. -/
noncomputable def slerpN (eps tol : ℝ) (spin : ℤ) : List (ℝ × Quat ℝ) → Option (Quat ℝ)
  | [] => none
  | [(_, q)] => some q
  | [(w0, q0), (w1, q1)] =>
    if |w0 + w1 - 1| < tol ∧ 0 ≤ w0 ∧ 0 ≤ w1 then some (slerp eps w1 q0 q1 spin) else none
  | (w0, q0) :: (w1, q1) :: r :: l =>
    let sum := if w0 + w1 = 0 then 1 else w0 + w1
    slerpN eps tol spin ((sum, slerp eps (w1 / sum) q0 q1 spin) :: r :: l)
termination_by l => l.length

end Verif.Camera
