import Verif.Camera.Quat

/-
Model of src/vw/Math/EulerAngles.h.  Numbers are exact reals; not a number is a missing value.
-/

namespace Verif.Camera

/-- `asin`: no value outside of [-1, 1]. -/
noncomputable def asin? (x : ℝ) : Option ℝ := if -1 ≤ x ∧ x ≤ 1 then some (Real.arcsin x) else none

/-- `sqrt`: no value for negative numbers. -/
noncomputable def sqrt? (x : ℝ) : Option ℝ := if 0 ≤ x then some (Real.sqrt x) else none

/-- `rotation_x_axis` (src/vw/Math/EulerAngles.h:84-92). -/
noncomputable def rotX (t : ℝ) : M3 ℝ := ⟨⟨1, 0, 0⟩, ⟨0, Real.cos t, -Real.sin t⟩, ⟨0, Real.sin t, Real.cos t⟩⟩

/-- `rotation_y_axis` (src/vw/Math/EulerAngles.h:95-103). -/
noncomputable def rotY (t : ℝ) : M3 ℝ := ⟨⟨Real.cos t, 0, Real.sin t⟩, ⟨0, 1, 0⟩, ⟨-Real.sin t, 0, Real.cos t⟩⟩

/-- `rotation_z_axis` (src/vw/Math/EulerAngles.h:106-114). -/
noncomputable def rotZ (t : ℝ) : M3 ℝ := ⟨⟨Real.cos t, -Real.sin t, 0⟩, ⟨Real.sin t, Real.cos t, 0⟩, ⟨0, 0, 1⟩⟩

/-- `euler_rotation_helper` (src/vw/Math/EulerAngles.h:118-130); no value: `ArgumentErr`. -/
noncomputable def rotAxis (t : ℝ) (axis : Char) : Option (M3 ℝ) :=
  if axis = 'X' ∨ axis = 'x' then some (rotX t)
  else if axis = 'Y' ∨ axis = 'y' then some (rotY t)
  else if axis = 'Z' ∨ axis = 'z' then some (rotZ t)
  else none

/-- `euler_to_rotation_matrix` (src/vw/Math/EulerAngles.h:151-161); the string as its characters; no value: `ArgumentErr`. -/
noncomputable def eulerM (phi omega kappa : ℝ) (sequence : List Char) : Option (M3 ℝ) :=
  match sequence with
  | [a, b, c] =>
    match rotAxis phi a, rotAxis omega b, rotAxis kappa c with
    | some e_phi, some e_omega, some e_kappa => some ((e_kappa.mul e_omega).mul e_phi)
    | _, _, _ => none
  | _ => none

/-- `euler_to_quaternion` (src/vw/Math/EulerAngles.h:164-166). -/
noncomputable def eulerQ (phi omega kappa : ℝ) (sequence : List Char) : Option (Quat ℝ) :=
  (eulerM phi omega kappa sequence).map (Quat.ofM Real.sqrt)

/-- `rotation_matrix_to_euler_xyz` (src/vw/Math/EulerAngles.h:33-43). -/
noncomputable def toXYZ (m : M3 ℝ) : Option (V3 ℝ) :=
  match asin? (-m.r2.x) with
  | none => none
  | some omega =>
    let kappa := atan2 m.r1.x m.r0.x
    let phi := atan2 m.r2.y m.r2.z
    some ⟨phi, omega, kappa⟩

/-- `rotation_matrix_to_euler_zyx` (src/vw/Math/EulerAngles.h:46-56). -/
noncomputable def toZYX (m : M3 ℝ) : Option (V3 ℝ) :=
  match asin? m.r0.z with
  | none => none
  | some omega =>
    let kappa := atan2 (-m.r0.y) m.r0.x
    let phi := atan2 (-m.r1.z) m.r2.z
    some ⟨kappa, omega, phi⟩

/-- `rotation_matrix_to_euler_yxz` (src/vw/Math/EulerAngles.h:59-68). -/
noncomputable def toYXZ (m : M3 ℝ) : Option (V3 ℝ) :=
  match sqrt? (1 - m.r2.y * m.r2.y) with
  | none => none
  | some cos_phi =>
    let phi := atan2 m.r2.y cos_phi
    let omega := atan2 (-m.r2.x) m.r2.z
    let kappa := atan2 (-m.r0.y) m.r1.y
    some ⟨omega, phi, kappa⟩

/-- `rotation_matrix_to_euler_zxy` (src/vw/Math/EulerAngles.h:71-81). -/
noncomputable def toZXY (m : M3 ℝ) : Option (V3 ℝ) :=
  let sin_phi := -m.r1.z
  match sqrt? (1 - sin_phi * sin_phi) with
  | none => none
  | some cos_phi =>
    let phi := atan2 sin_phi cos_phi
    let omega := atan2 m.r0.z m.r2.z
    let kappa := atan2 m.r1.x m.r1.y
    some ⟨kappa, phi, omega⟩

/-- `euler_xyz_to_quaternion` (src/vw/Math/EulerAngles.h:169-180). -/
noncomputable def xyzQ (v : V3 ℝ) : Quat ℝ :=
  let cx2 := Real.cos (v.x * (1 / 2))
  let sx2 := Real.sin (v.x * (1 / 2))
  let cy2 := Real.cos (v.y * (1 / 2))
  let sy2 := Real.sin (v.y * (1 / 2))
  let cz2 := Real.cos (v.z * (1 / 2))
  let sz2 := Real.sin (v.z * (1 / 2))
  ⟨cx2 * cy2 * cz2 + sx2 * sy2 * sz2, sx2 * cy2 * cz2 - cx2 * sy2 * sz2,
   cx2 * sy2 * cz2 + sx2 * cy2 * sz2, cx2 * cy2 * sz2 - sx2 * sy2 * cz2⟩

/-- `quaternion_to_euler_xyz` (src/vw/Math/EulerAngles.h:183-199); `thr` is the 0.499999; the messages are left out. -/
noncomputable def qXYZ (thr : ℝ) (q : Quat ℝ) : Option (V3 ℝ) :=
  let test := q.w * q.y - q.z * q.x
  if thr < test then some ⟨-2 * atan2 q.z q.w, Real.pi / 2, 0⟩
  else if test < -thr then some ⟨2 * atan2 q.z q.w, -Real.pi / 2, 0⟩
  else
    match asin? (2 * test) with
    | none => none
    | some a =>
      some ⟨atan2 (2 * (q.w * q.x + q.y * q.z)) (1 - 2 * (q.x * q.x + q.y * q.y)), a,
        atan2 (2 * (q.w * q.z + q.x * q.y)) (1 - 2 * (q.y * q.y + q.z * q.z))⟩

end Verif.Camera
