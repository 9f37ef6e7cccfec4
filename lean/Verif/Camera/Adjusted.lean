import Verif.Camera.Pinhole

/-
Model of `AdjustedCameraModel` (src/vw/Camera/CameraModel.{h,cc}).  Numbers are exact; not a number and exceptions are a
missing value.
-/

namespace Verif.Camera

variable {K : Type} [Field K] [LinearOrder K]

/-- The virtual functions of `CameraModel` (src/vw/Camera/CameraModel.h:45-97); no value: an exception. -/
structure Base (K : Type) where
  toPixel : V3 K → Option (K × K)
  toVector : K × K → Option (V3 K)
  center : K × K → Option (V3 K)
  pose : K × K → Option (Quat K)

/-- `AdjustedCameraModel` (src/vw/Camera/CameraModel.h:115-136); no `rotInv`: the inverse of the zero quaternion. -/
structure Adj (K : Type) where
  base : Base K
  t : V3 K
  rot : Quat K
  rotInv : Option (Quat K)
  rc : V3 K
  off : K × K
  scale : K

/-- The choice of the centre of rotation (src/vw/Camera/CameraModel.cc:65-73): the first pixel of the diagonal that has a
centre. -/
def Base.rotCenter (b : Base K) : V3 K :=
  ((List.range 10000).findSome? (fun k => b.center (((10 * k : ℕ) : K), ((10 * k : ℕ) : K)))).getD 0

/-- The constructor (src/vw/Camera/CameraModel.cc:47-74). -/
def Adj.make (b : Base K) (t : V3 K) (rot : Quat K) (off : K × K) (scale : K) : Adj K :=
  ⟨b, t, rot, rot.inv, b.rotCenter, off, scale⟩

/-- The constructor with the default arguments (src/vw/Camera/CameraModel.h:140-144). -/
def Adj.blank (b : Base K) : Adj K := Adj.make b 0 ⟨1, 0, 0, 0⟩ (0, 0) 1

/-- The setters (src/vw/Camera/CameraModel.cc:91-94, CameraModel.h:157-183). -/
inductive AdjOp (K : Type) where
  | rotation (q : Quat K)
  | rotationM (m : M3 K)
  | translation (t : V3 K)
  | offset (p : K × K)
  | scale (s : K)

/-- One call of a setter. -/
def Adj.step (sqrt : K → K) (a : Adj K) : AdjOp K → Adj K
  | .rotation q => { a with rot := q, rotInv := q.inv }
  | .rotationM m => { a with rot := Quat.ofM sqrt m, rotInv := (Quat.ofM sqrt m).inv }
  | .translation t => { a with t := t }
  | .offset p => { a with off := p }
  | .scale s => { a with scale := s }

/-- The pixel of the camera inside: scale times pixel plus offset. -/
def Adj.inner (a : Adj K) (pix : K × K) : K × K := (a.scale * pix.1 + a.off.1, a.scale * pix.2 + a.off.2)

/-- `adjusted_point` (src/vw/Camera/CameraModel.cc:100-104). -/
def Adj.point (a : Adj K) (p : V3 K) : Option (V3 K) :=
  let offset_pt := p - a.rc - a.t
  match a.rotInv with
  | none => none
  | some i => (i.rotate offset_pt).map (fun x => x + a.rc)

/-- `point_to_pixel` (src/vw/Camera/CameraModel.cc:106-109). -/
def Adj.toPixel (a : Adj K) (p : V3 K) : Option (K × K) :=
  match a.point p with
  | none => none
  | some x =>
    match a.base.toPixel x with
    | none => none
    | some q => divPix (q.1 - a.off.1, q.2 - a.off.2) a.scale

/-- `pixel_to_vector` (src/vw/Camera/CameraModel.cc:111-113). -/
def Adj.toVector (a : Adj K) (pix : K × K) : Option (V3 K) :=
  match a.base.toVector (a.inner pix) with
  | none => none
  | some v => a.rot.rotate v

/-- `camera_center` (src/vw/Camera/CameraModel.cc:115-120). -/
def Adj.center (a : Adj K) (pix : K × K) : Option (V3 K) :=
  match a.base.center (a.inner pix) with
  | none => none
  | some old_ct => (a.rot.rotate (old_ct - a.rc)).map (fun x => x + a.rc + a.t)

/-- `camera_pose` (src/vw/Camera/CameraModel.cc:122-124). -/
def Adj.pose (a : Adj K) (pix : K × K) : Option (Quat K) := (a.base.pose (a.inner pix)).map (fun q => a.rot.mul q)

/-- `apply_transform` (src/vw/Camera/CameraModel.cc:129-155), the upper left part of the matrix and its last column; `cbrt` is
the power of 1/3, which is not a number for a negative number; zero is divided by. -/
def Adj.transform (sqrt cbrt : K → K) (a : Adj K) (m : M3 K) (t : V3 K) : Option (Adj K) :=
  if m.det ≤ 0 then none
  else
    let scale := cbrt m.det
    let R := m.smul (1 / scale)
    some { a with rot := (Quat.ofM sqrt R).mul a.rot, t := (R.smul scale).mulVec (a.rc + a.t) + t - a.rc }

/-- `ecef_transform` (src/vw/Camera/CameraModel.cc:165-187): rotation and last column; `tol` is the 1e-10; no value:
`NoImplErr`. -/
def Adj.ecef (tol : K) (a : Adj K) : Option (M3 K × V3 K) :=
  if tol < |a.scale - 1| then none
  else
    let R := a.rot.toM
    some (R, R.neg.mulVec a.rc + a.rc + a.t)

/-- `write` (src/vw/Camera/CameraModel.cc:189-199): the numbers in the file (18 digits are enough for a double). -/
def Adj.write (a : Adj K) : List K :=
  [a.t.x, a.t.y, a.t.z, a.rot.w, a.rot.x, a.rot.y, a.rot.z, a.off.1, a.off.2, a.scale]

/-- `read` (src/vw/Camera/CameraModel.cc:204-227); the numbers up to the end of the file or what is not a number. -/
def Adj.read (a : Adj K) (l : List K) : Adj K :=
  let m := Adj.blank a.base
  match l with
  | x :: y :: z :: l =>
    let m := { m with t := ⟨x, y, z⟩ }
    match l with
    | qw :: qx :: qy :: qz :: l =>
      let m := { m with rot := ⟨qw, qx, qy, qz⟩, rotInv := (⟨qw, qx, qy, qz⟩ : Quat K).inv }
      match l with
      | ox :: oy :: l =>
        let m := { m with off := (ox, oy) }
        match l with
        | s :: _ => { m with scale := s }
        | _ => m
      | _ => m
    | _ => m
  | _ => m

end Verif.Camera
