import Verif.Camera.Quat
/-
Model of src/vw/Math/PoseEstimation.h.

Numbers are exact.  The solver of the eigenvalue problem (`eigen`, LAPACK's geev) is a parameter; of its complex values only the
real parts are taken up, as in the code.
-/
namespace VW.Pose

open Verif.Camera

/-- The `Matrix4x4` with the upper entries that are added up. -/
structure Up (K : Type) where
  m00 : K
  m01 : K
  m02 : K
  m03 : K
  m11 : K
  m12 : K
  m13 : K
  m22 : K
  m23 : K
  m33 : K

section ring
variable {K : Type} [CommRing K]

/-- `Matrix4x4 M;`, PoseEstimation.h:47. -/
def zero : Up K := ⟨0, 0, 0, 0, 0, 0, 0, 0, 0, 0⟩

/-- One pass of the loop over the columns, PoseEstimation.h:51-60. -/
def addPair (M : Up K) (p : V3 K × V3 K) : Up K :=
  let v1 := p.1
  let v2 := p.2
  { m00 := M.m00 + -dot v1 v2
    m01 := M.m01 + (v1.z * v2.y - v1.y * v2.z)
    m02 := M.m02 + (v1.x * v2.z - v1.z * v2.x)
    m03 := M.m03 + (v1.y * v2.x - v1.x * v2.y)
    m11 := M.m11 + (-(v1.x * v2.x) + v1.y * v2.y + v1.z * v2.z)
    m22 := M.m22 + (v1.x * v2.x - v1.y * v2.y + v1.z * v2.z)
    m33 := M.m33 + (v1.x * v2.x + v1.y * v2.y - v1.z * v2.z)
    m12 := M.m12 - (v1.x * v2.y + v2.x * v1.y)
    m13 := M.m13 - (v1.z * v2.x + v2.z * v1.x)
    m23 := M.m23 - (v1.y * v2.z + v2.y * v1.z) }

/-- The full matrix with the mirrored entries, PoseEstimation.h:62-67, by its product with a vector. -/
def mulVec (M : Up K) (q : Quat K) : Quat K :=
  let m10 := M.m01
  let m20 := M.m02
  let m21 := M.m12
  let m30 := M.m03
  let m31 := M.m13
  let m32 := M.m23
  ⟨M.m00 * q.w + M.m01 * q.x + M.m02 * q.y + M.m03 * q.z,
   m10 * q.w + M.m11 * q.x + M.m12 * q.y + M.m13 * q.z,
   m20 * q.w + m21 * q.x + M.m22 * q.y + M.m23 * q.z,
   m30 * q.w + m31 * q.x + m32 * q.y + M.m33 * q.z⟩

/-- The matrix of all pairs, PoseEstimation.h:47-61. -/
def build (ps : List (V3 K × V3 K)) : Up K := ps.foldl addPair zero

end ring

/-- The search of the least eigenvalue, PoseEstimation.h:71-78. -/
def least {K : Type} [LT K] [DecidableLT K] (evals : Fin 4 → K) : Fin 4 :=
  (([1, 2, 3] : List (Fin 4)).foldl (fun (s : Fin 4 × K) i => if evals i < s.2 then (i, evals i) else s) (0, evals 0)).1

/-- `relative_orientation`, PoseEstimation.h:40-80: the pairs are the columns of the two matrices, which have equally many. -/
def relativeOrientation {K : Type} [CommRing K] [LT K] [DecidableLT K] (eigen : Up K → (Fin 4 → K) × (Fin 4 → Quat K))
    (ps : List (V3 K × V3 K)) : Quat K :=
  let e := eigen (build ps)
  e.2 (least e.1)

end VW.Pose
