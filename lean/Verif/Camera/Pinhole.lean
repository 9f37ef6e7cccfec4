import Verif.Camera.Quat

/-
Model of src/vw/Camera/PinholeModel.{h,cc} and of the conversions between this and the CAHV model
(src/vw/Camera/CAHVModel.cc).  Numbers are exact, `sqrt` is the square root; a division by zero is a missing value.  Reading
and writing of files and `set_camera_matrix` (LAPACK) are not modelled.
-/

namespace Verif.Camera

variable {K : Type} [Field K] [LinearOrder K]

/-- A lens (src/vw/Camera/LensDistortion.h:40-66): the two functions may look at focal length and offset of the camera
(src/vw/Camera/LensDistortion.cc:734, 835-836); no value if they throw. -/
structure Lens (K : Type) where
  dist : K × K → K × K → K × K → Option (K × K)
  undist : K × K → K × K → K × K → Option (K × K)

/-- `NullLensDistortion` (src/vw/Camera/LensDistortion.h:108-124). -/
def Lens.null : Lens K := ⟨fun _ _ q => some q, fun _ _ q => some q⟩

/-- The matrix as `inverse` takes it. -/
def M3.toMat (m : M3 K) : VW.Matrix.Mat K := fun i j =>
  let r := match i with | 0 => m.r0 | 1 => m.r1 | _ => m.r2
  match j with | 0 => r.x | 1 => r.y | _ => r.z

/-- And back. -/
def M3.ofMat (a : VW.Matrix.Mat K) : M3 K := ⟨⟨a 0 0, a 0 1, a 0 2⟩, ⟨a 1 0, a 1 1, a 1 2⟩, ⟨a 2 0, a 2 1, a 2 2⟩⟩

/-- `inverse` (src/vw/Math/Matrix.h:2220-2281), modelled in `VW.Matrix.inverse`; no value: `MathErr`. -/
def M3.inverse (m : M3 K) : Option (M3 K) := (VW.Matrix.inverse 3 m.toMat).map M3.ofMat

/-- Negation. -/
def M3.neg (m : M3 K) : M3 K := ⟨-m.r0, -m.r1, -m.r2⟩

/-- What can be thrown. -/
inductive Fail where
  | assert
  | math
  | arg
  | pixel
  deriving DecidableEq

/-- `PinholeModel` (src/vw/Camera/PinholeModel.h:84-119); the 3 by 4 matrices as a 3 by 3 matrix and the last column. -/
structure Pin (K : Type) where
  lens : Lens K
  C : V3 K
  R : M3 K
  fu : K
  fv : K
  cu : K
  cv : K
  u : V3 K
  v : V3 K
  w : V3 K
  pitch : K
  check : Bool
  /-- `m_extrinsics` -/
  ext : M3 K
  extT : V3 K
  /-- `m_camera_matrix` -/
  cam : M3 K
  camT : V3 K
  /-- `m_inv_camera_transform` -/
  inv : M3 K

/-- The matrix of intrinsic parameters (src/vw/Camera/PinholeModel.cc:565-573). -/
def Pin.intr (p : Pin K) : M3 K := ⟨⟨p.fu, 0, p.cu⟩, ⟨0, p.fv, p.cv⟩, ⟨0, 0, 1⟩⟩

/-- `uvwRotation` (src/vw/Camera/PinholeModel.cc:593-597). -/
def Pin.uvw (p : Pin K) : M3 K := ⟨p.u, p.v, p.w⟩

/-- The assertions on the frame (src/vw/Camera/PinholeModel.cc:586-591); `tol` is the 0.001. -/
def Pin.frameOk (sqrt : K → K) (tol : K) (p : Pin K) : Bool :=
  decide (dot p.u p.v = 0) && decide (dot p.u p.w = 0) && decide (dot p.v p.w = 0) &&
  decide (|norm sqrt p.u - 1| < tol) && decide (|norm sqrt p.v - 1| < tol) && decide (|norm sqrt p.w - 1| < tol)

/-- `rebuild_camera_matrix` (src/vw/Camera/PinholeModel.cc:553-605): the state behind, and what is thrown. -/
def Pin.rebuild (sqrt : K → K) (tol : K) (p : Pin K) : Pin K × Option Fail :=
  if p.frameOk sqrt tol then
    let ri := p.R.transpose
    let e := p.uvw.mul ri
    let eT := (p.uvw.mul ri.neg).mulVec p.C
    let p1 : Pin K := { p with ext := e, extT := eT, cam := p.intr.mul e, camT := p.intr.mulVec eT }
    match (p.uvw.mul ri).inverse, p.intr.inverse with
    | some a, some b => ({ p1 with inv := a.mul b }, none)
    | _, _ => (p1, some .math)
  else (p, some .assert)

/-- The constructor (src/vw/Camera/PinholeModel.cc:79-97, 99-116). -/
def Pin.make (sqrt : K → K) (tol : K) (C : V3 K) (R : M3 K) (fu fv cu cv : K) (u v w : V3 K) (lens : Lens K) (pitch : K) :
    Except Fail (Pin K) :=
  match (⟨lens, C, R, fu, fv, cu, cv, u, v, w, pitch, true, M3.one, 0, M3.one, 0, M3.one⟩ : Pin K).rebuild sqrt tol with
  | (p, none) => .ok p
  | (_, some e) => .error e

/-- A pixel divided by a number; no value for zero. -/
def divPix (q : K × K) (s : K) : Option (K × K) := if s = 0 then none else some (q.1 / s, q.2 / s)

/-- The product with the camera matrix (src/vw/Camera/PinholeModel.cc:353-360, 401-408). -/
def Pin.plane (p : Pin K) (x : V3 K) : Option (K × K) :=
  let h := p.cam.mulVec x + p.camT
  divPix (h.x, h.y) h.z

/-- `point_to_pixel_no_check` (src/vw/Camera/PinholeModel.cc:351-368). -/
def Pin.noCheck (p : Pin K) (x : V3 K) : Option (K × K) :=
  match p.plane x with
  | none => none
  | some q =>
    match p.lens.dist (p.fu, p.fv) (p.cu, p.cv) q with
    | none => none
    | some d => divPix d p.pitch

/-- `point_to_pixel_no_distortion` (src/vw/Camera/PinholeModel.cc:399-413). -/
def Pin.noDistortion (p : Pin K) (x : V3 K) : Option (K × K) :=
  match p.plane x with
  | none => none
  | some q => divPix q p.pitch

/-- `projection_valid` (src/vw/Camera/PinholeModel.cc:415-420). -/
def Pin.valid (p : Pin K) (x : V3 K) : Bool := decide (0 < dot p.ext.r2 x + p.extT.z)

/-- `pixel_to_vector` (src/vw/Camera/PinholeModel.cc:422-430). -/
def Pin.pixelToVector (sqrt : K → K) (p : Pin K) (pix : K × K) : Option (V3 K) :=
  match p.lens.undist (p.fu, p.fv) (p.cu, p.cv) (pix.1 * p.pitch, pix.2 * p.pitch) with
  | none => none
  | some q => normalize sqrt (p.inv.mulVec ⟨q.1, q.2, 1⟩)

/-- `point_to_pixel` (src/vw/Camera/PinholeModel.cc:370-397); `thr` is the 0.01.  No value: an exception, or not a number
where the check is off. -/
def Pin.pointToPixel (sqrt : K → K) (thr : K) (p : Pin K) (x : V3 K) : Option (K × K) :=
  match p.noCheck x with
  | none => none
  | some q =>
    if p.check then
      match p.pixelToVector sqrt q, normalize sqrt (x - p.C) with
      | some a, some b =>
        let diff := norm sqrt (a - b)
        let diff := if thr ≤ diff then norm sqrt (a + b) else diff
        if thr ≤ diff then none else some q
      | _, _ => none
    else some q

/-! ## Changes -/

/-- The functions that change a camera (src/vw/Camera/PinholeModel.cc:436-501, PinholeModel.h:217). -/
inductive Op (K : Type) where
  | center (c : V3 K)
  | pose (q : Quat K)
  | poseM (m : M3 K)
  | frame (u v w : V3 K)
  | lens (l : Lens K)
  | intrinsics (fu fv cu cv : K)
  | focal (fu fv : K) (rebuild : Bool)
  | offset (cu cv : K) (rebuild : Bool)
  | pitch (x : K)
  | check (b : Bool)

/-- The parameters as the function sets them. -/
def Op.params (p : Pin K) : Op K → Pin K
  | .center c => { p with C := c }
  | .pose q => { p with R := q.toM }
  | .poseM m => { p with R := m }
  | .frame u v w => { p with u := u, v := v, w := w }
  | .lens l => { p with lens := l }
  | .intrinsics fu fv cu cv => { p with fu := fu, fv := fv, cu := cu, cv := cv }
  | .focal fu fv _ => { p with fu := fu, fv := fv }
  | .offset cu cv _ => { p with cu := cu, cv := cv }
  | .pitch x => { p with pitch := x }
  | .check b => { p with check := b }

/-- Whether the function computes the matrices. -/
def Op.rebuilds : Op K → Bool
  | .lens _ => false
  | .pitch _ => false
  | .check _ => false
  | .focal _ _ b => b
  | .offset _ _ b => b
  | _ => true

/-- One call. -/
def Pin.step (sqrt : K → K) (tol : K) (p : Pin K) (o : Op K) : Pin K × Option Fail :=
  if o.rebuilds then (o.params p).rebuild sqrt tol else (o.params p, none)

/-- A history; it ends with the first exception. -/
def Pin.run (sqrt : K → K) (tol : K) (p : Pin K) : List (Op K) → Pin K × Option Fail
  | [] => (p, none)
  | o :: l =>
    match p.step sqrt tol o with
    | (p1, none) => p1.run sqrt tol l
    | r => r

/-- `apply_transform` (src/vw/Camera/PinholeModel.cc:628-643). -/
def Pin.transform (sqrt : K → K) (tol : K) (p : Pin K) (rot : M3 K) (t : V3 K) (s : K) : Pin K × Option Fail :=
  let position := (rot.smul s).mulVec p.C + t
  let pose := (Quat.ofM sqrt rot).mul (Quat.ofM sqrt p.R)
  p.run sqrt tol [.center position, .pose pose]

/-- `apply_transform` for a 4 by 4 matrix (src/vw/Camera/PinholeModel.cc:608-625): its upper left part, last column and last
element; `cbrt` is the power of 1/3, which is not a number for a negative one. -/
def Pin.transform4 (sqrt cbrt : K → K) (tol : K) (p : Pin K) (a : M3 K) (t : V3 K) (last : K) : Option (Pin K × Option Fail) :=
  if last ≠ 1 then some (p, some .arg)
  else if a.det ≤ 0 then none
  else
    let s := cbrt a.det
    some (p.transform sqrt tol (a.smul (1 / s)) t s)

/-- `scale_camera` (src/vw/Camera/PinholeModel.cc:647-661). -/
def Pin.scale (sqrt : K → K) (tol : K) (p : Pin K) (s : K) : Except Fail (Pin K) :=
  if s = 0 then .error .arg
  else Pin.make sqrt tol p.C (Quat.ofM sqrt p.R).toM p.fu p.fv p.cu p.cv p.u p.v p.w p.lens (p.pitch / s)

/-- `strip_lens_distortion` (src/vw/Camera/PinholeModel.cc:663-674). -/
def Pin.strip (sqrt : K → K) (tol : K) (p : Pin K) : Except Fail (Pin K) :=
  Pin.make sqrt tol p.C (Quat.ofM sqrt p.R).toM p.fu p.fv p.cu p.cv p.u p.v p.w Lens.null p.pitch

/-- The third column. -/
def M3.col2 (m : M3 K) : V3 K := ⟨m.r0.z, m.r1.z, m.r2.z⟩

/-- `epipolar` (src/vw/Camera/PinholeModel.cc:679-732); no value: not a number or an exception. -/
def Pin.epipolar (sqrt : K → K) (tol : K) (s0 s1 : Pin K) : Option (Pin K × Pin K) :=
  let rot0 := (Quat.ofM sqrt s0.R).toM
  let rot1 := (Quat.ofM sqrt s1.R).toM
  let look0 := (-1 : K) * rot0.col2
  let look1 := (-1 : K) * rot1.col2
  match normalize sqrt (s1.C - s0.C) with
  | none => none
  | some u =>
    let mean := (1 / 2 : K) * (look0 + look1)
    match normalize sqrt (cross u (cross mean u)) with
    | none => none
    | some w =>
      let v := cross w u
      let rot : M3 K := ⟨⟨u.x, -v.x, -w.x⟩, ⟨u.y, -v.y, -w.y⟩, ⟨u.z, -v.z, -w.z⟩⟩
      let mk := fun c => Pin.make sqrt tol c rot ((s0.fu + s1.fu) / 2) ((s0.fv + s1.fv) / 2) ((s0.cu + s1.cu) / 2)
        ((s0.cv + s1.cv) / 2) ⟨1, 0, 0⟩ ⟨0, 1, 0⟩ ⟨0, 0, 1⟩ Lens.null ((s0.pitch + s1.pitch) / 2)
      match mk s0.C, mk s1.C with
      | .ok d0, .ok d1 => some (d0, d1)
      | _, _ => none

/-! ## The two models -/

/-- `CAHVModel::operator=` (src/vw/Camera/CAHVModel.cc:64-99); no value: an exception. -/
def Cahv.ofPin (p : Pin K) : Option (Cahv K) :=
  if p.pitch = 0 then none
  else
    let fH := p.fu / p.pitch
    let fV := p.fv / p.pitch
    let cH := p.cu / p.pitch
    let cV := p.cv / p.pitch
    let A := p.R.mulVec p.w
    some ⟨p.C, A, fH * p.R.mulVec p.u + cH * A, fV * p.R.mulVec p.v + cV * A⟩

/-- `toPinhole` (src/vw/Camera/CAHVModel.cc:105-136): the new camera and what becomes of the old one, whose `A` is changed;
no value: not a number or an exception. -/
def Cahv.toPin (sqrt : K → K) (tol : K) (m : Cahv K) : Option (Pin K × Cahv K) :=
  let Hc := dot m.A m.H
  let fH := norm sqrt (cross m.A m.H)
  let Vc := dot m.A m.V
  let fV := norm sqrt (cross m.A m.V)
  if fH = 0 ∨ fV = 0 then none
  else
    match normalize sqrt ((1 / fH) * (m.H - Hc * m.A)), normalize sqrt ((1 / fV) * (m.V - Vc * m.A)), normalize sqrt m.A with
    | some h, some v, some a =>
      match (⟨h, v, a⟩ : M3 K).inverse with
      | none => none
      | some r =>
        match Pin.make sqrt tol m.C r fH fV Hc Vc ⟨1, 0, 0⟩ ⟨0, 1, 0⟩ ⟨0, 0, 1⟩ Lens.null 1 with
        | .ok p => some (p, { m with A := a })
        | .error _ => none
    | _, _, _ => none

end Verif.Camera
