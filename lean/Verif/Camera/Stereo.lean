import Verif.Camera.Vec
import Verif.Math.Inverse

/-
Model of src/vw/Stereo/StereoModel.cc: triangulation.  Numbers are exact; a division by zero, which gives NaN or infinity,
is a missing value.
-/

namespace Verif.Camera

variable {K : Type} [Field K] [LinearOrder K]

/-- `triangulate_pair` (src/vw/Stereo/StereoModel.cc:35-49): the point and the error vector. -/
def triangulatePair (d0 c0 d1 c1 : V3 K) : Option (V3 K × V3 K) :=
  let v12 := cross d0 d1
  let v1 := cross v12 d0
  let v2 := cross v12 d1
  if dot v2 d0 = 0 ∨ dot v1 d1 = 0 then none
  else
    let p1 := c0 + (dot v2 (c1 - c0) / dot v2 d0) * d0
    let p2 := c1 + (dot v1 (c0 - c1) / dot v1 d1) * d1
    some ((1 / 2 : K) * (p1 + p2), p1 - p2)

/-- `are_nearly_parallel` (src/vw/Stereo/StereoModel.cc:69-93); `dflt` is the tolerance of 1e-4. -/
def nearlyParallel (dflt angleTol : K) (dirs : List (V3 K)) : Bool :=
  let tol := if 0 < angleTol then angleTol else dflt
  (List.range (dirs.length - 1)).all (fun p => !decide (tol ≤ 1 - dot (dirs.getD p 0) (dirs.getD (p + 1) 0)))

/-- A ray: direction and centre. -/
abbrev Ray (K : Type) := V3 K × V3 K

/-- The sums of the loop of `triangulate_point` (src/vw/Stereo/StereoModel.cc:209-225), the six elements of the matrix
that are computed and the right-hand side: m00, m11, m22, m01, m02, m12, r. -/
structure Normal (K : Type) where
  m00 : K
  m11 : K
  m22 : K
  m01 : K
  m02 : K
  m12 : K
  r : V3 K

/-- One round of the loop. -/
def normalStep (s : Normal K) (ray : Ray K) : Normal K :=
  let a := ray.1.x; let b := ray.1.y; let c := ray.1.z
  let x := ray.2.x; let y := ray.2.y; let z := ray.2.z
  ⟨s.m00 + 1 - a * a, s.m11 + 1 - b * b, s.m22 + 1 - c * c, s.m01 - a * b, s.m02 - a * c, s.m12 - b * c,
    ⟨s.r.x + (1 - a * a) * x - a * b * y - a * c * z, s.r.y + (1 - b * b) * y - a * b * x - b * c * z,
     s.r.z + (1 - c * c) * z - a * c * x - b * c * y⟩⟩

/-- The loop. -/
def normal (rays : List (Ray K)) : Normal K := rays.foldl normalStep ⟨0, 0, 0, 0, 0, 0, 0⟩

/-- The matrix (src/vw/Stereo/StereoModel.cc:226-228). -/
def Normal.mat (s : Normal K) : VW.Matrix.Mat K := fun i j =>
  match i, j with
  | 0, 0 => s.m00 | 1, 1 => s.m11 | 2, 2 => s.m22
  | 0, 1 => s.m01 | 1, 0 => s.m01
  | 0, 2 => s.m02 | 2, 0 => s.m02
  | 1, 2 => s.m12 | 2, 1 => s.m12
  | _, _ => 0

/-- Product of a matrix and a vector. -/
def mulVec3 (A : VW.Matrix.Mat K) (v : V3 K) : V3 K :=
  ⟨A 0 0 * v.x + A 0 1 * v.y + A 0 2 * v.z, A 1 0 * v.x + A 1 1 * v.y + A 1 2 * v.z, A 2 0 * v.x + A 2 1 * v.y + A 2 2 * v.z⟩

/-- The square of the distance of a point to a ray (src/vw/Stereo/StereoModel.cc:239-242), for unit directions. -/
def rayDistSq (p : V3 K) (ray : Ray K) : K :=
  let a := ray.1.x; let b := ray.1.y; let c := ray.1.z
  let x := ray.2.x; let y := ray.2.y; let z := ray.2.z
  let v := a * (p.x - x) + b * (p.y - y) + c * (p.z - z)
  (p.x - x) * (p.x - x) + (p.y - y) * (p.y - y) + (p.z - z) * (p.z - z) - v * v

/-- The error of several rays (src/vw/Stereo/StereoModel.cc:233-247); `sqrt` is the square root. -/
def multiError (sqrt : K → K) (rays : List (Ray K)) (p : V3 K) : K :=
  2 * (rays.map (fun ray => sqrt (if rayDistSq p ray < 0 then 0 else rayDistSq p ray))).sum / (rays.length : K)

/-- What triangulation does. -/
inductive Out (K : Type) where
  /-- A point and an error vector. -/
  | ok (p e : V3 K)
  /-- Not a number. -/
  | nan
  /-- The inverse of a singular matrix: an exception. -/
  | mathErr
  /-- Wrong number of pixels: an exception. -/
  | argErr
  deriving DecidableEq

/-- `triangulate_point` for several rays (src/vw/Stereo/StereoModel.cc:196-253). -/
def triangulateMulti (sqrt : K → K) (rays : List (Ray K)) : Out K :=
  match VW.Matrix.inverse 3 (normal rays).mat with
  | none => .mathErr
  | some B =>
    let p := mulVec3 B (normal rays).r
    .ok p ⟨multiError sqrt rays p, 0, 0⟩

/-- `triangulate_point` (src/vw/Stereo/StereoModel.cc:184-253). -/
def triangulatePoint (sqrt : K → K) (rays : List (Ray K)) : Out K :=
  match rays with
  | [r0, r1] =>
    match triangulatePair r0.1 r0.2 r1.1 r1.2 with
    | none => .nan
    | some (p, e) => .ok p e
  | _ => triangulateMulti sqrt rays

/-- A camera model: the direction of a pixel, unless that fails, and the centre. -/
structure Cam (K : Type) where
  toVector : K × K → Option (V3 K)
  center : K × K → V3 K

/-- Picking the valid rays (src/vw/Stereo/StereoModel.cc:110-123); a missing pixel is NaN, `inv` the invalid pixel.  No
value: `PixelToRayErr` was thrown. -/
def pickRays (inv : K × K) : List (Cam K × Option (K × K)) → Option (List (Ray K))
  | [] => some []
  | (cam, pix) :: l =>
    match pix with
    | none => pickRays inv l
    | some q =>
      if q = inv then pickRays inv l
      else
        match cam.toVector q with
        | none => none
        | some d => (pickRays inv l).map (fun r => (d, cam.center q) :: r)

/-- What is done with the rays (src/vw/Stereo/StereoModel.cc:125-143). -/
def fromRays (sqrt : K → K) (dflt angleTol : K) (rays : List (Ray K)) : Out K :=
  if rays.length < 2 then .ok 0 0
  else if nearlyParallel dflt angleTol (rays.map (·.1)) then .ok 0 0
  else
    match triangulatePoint sqrt rays with
    | .ok p e =>
      if rays.any (fun r => decide (dot (p - r.2) r.1 < 0)) then .ok (-p + (2 : K) * (rays.headD (0, 0)).2) e else .ok p e
    | o => o

/-- `StereoModel::operator()` (src/vw/Stereo/StereoModel.cc:99-148). -/
def triangulate (sqrt : K → K) (dflt angleTol : K) (inv : K × K) (cams : List (Cam K)) (pix : List (Option (K × K))) : Out K :=
  if pix.length ≠ cams.length then .argErr
  else
    match pickRays inv (cams.zip pix) with
    | none => .ok 0 0
    | some rays => fromRays sqrt dflt angleTol rays

end Verif.Camera
