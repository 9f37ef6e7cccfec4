import Mathlib.Analysis.SpecialFunctions.Trigonometric.Arctan
import Verif.Camera.RpcLens

/-
Model of the lens distortions of src/vw/Camera/LensDistortion.cc other than RPC.  Numbers are reals; `none` stands for an
exception or for infinite coordinates.  `Cam` is the part of a pinhole camera that the lens sees.
-/

namespace Verif.Camera.Lens

open Verif.Opt Verif.Camera.Rpc Real

/-- `norm_2` -/
noncomputable def norm2 (v : V2 ℝ) : ℝ := √(v.1 * v.1 + v.2 * v.2)

/-- Normalise a pixel: subtract the offset, divide by the focal length (src/vw/Camera/LensDistortion.cc:353-355). -/
noncomputable def toNorm (cam : Cam ℝ) (p : V2 ℝ) : V2 ℝ :=
  ((p.1 - cam.offset.1) / cam.focal.1, (p.2 - cam.offset.2) / cam.focal.2)

/-- Multiply by the focal length and add the offset (src/vw/Camera/LensDistortion.cc:364-367). -/
noncomputable def ofNorm (cam : Cam ℝ) (q : V2 ℝ) : V2 ℝ :=
  (q.1 * cam.focal.1 + cam.offset.1, q.2 * cam.focal.2 + cam.offset.2)

/-- The frame of the functions `distorted_coordinates` and `undistorted_coordinates` that work with normalised pixels, for
instance src/vw/Camera/LensDistortion.cc:345-369; `tiny` is `1e-300`. -/
noncomputable def frame (tiny : ℝ) (f : V2 ℝ → V2 ℝ) (cam : Cam ℝ) (p : V2 ℝ) : Option (V2 ℝ) :=
  if cam.focal.1 < tiny ∨ cam.focal.2 < tiny then none else some (ofNorm cam (f (toNorm cam p)))

/-- The inverse of `f` by Newton's method from the point itself, as in src/vw/Camera/LensDistortion.cc:386-395, with the
numerical Jacobian if none is given; step `1e-6`, tolerance `1e-9`. -/
noncomputable def newtonInv (big : ℝ) (f : V2 ℝ → V2 ℝ) (jac : Option (V2 ℝ → ℝ × ℝ × ℝ × ℝ)) (y : V2 ℝ) : V2 ℝ :=
  let g : V2 ℝ → Option (V2 ℝ) := fun x => some (f x)
  let J : V2 ℝ → ℝ → Option (ℝ × ℝ × ℝ × ℝ) := match jac with
    | some j => fun P _ => some (j P)
    | none => numJac g
  (newtonSolve ⟨g, J, norm2, big⟩ y y (1 / 1000000) (1 / 1000000000)).1

/-! ### Tsai -/

/-- `TsaiDistortionNorm` (src/vw/Camera/LensDistortion.cc:260-277). -/
noncomputable def tsaiNorm (dist : List ℝ) (P : V2 ℝ) : V2 ℝ :=
  let x := P.1
  let y := P.2
  let k1 := dist.getD 0 0
  let k2 := dist.getD 1 0
  let p1 := dist.getD 2 0
  let p2 := dist.getD 3 0
  let k3 := dist.getD 4 0
  let r2 := x * x + y * y
  let rdist := 1 + k1 * r2 + k2 * r2 * r2 + k3 * r2 * r2 * r2
  (x * rdist + (2 * p1 * x * y + p2 * (r2 + 2 * x * x)), y * rdist + (p1 * (r2 + 2 * y * y) + 2 * p2 * x * y))

/-- `TsaiDistortionJacobian` (src/vw/Camera/LensDistortion.cc:287-325). -/
noncomputable def tsaiJac (dist : List ℝ) (P : V2 ℝ) : ℝ × ℝ × ℝ × ℝ :=
  let x := P.1
  let y := P.2
  let k1 := dist.getD 0 0
  let k2 := dist.getD 1 0
  let p1 := dist.getD 2 0
  let p2 := dist.getD 3 0
  let k3 := dist.getD 4 0
  let r2 := x * x + y * y
  let dr2dx := 2 * x
  let dr2dy := 2 * y
  let rdist := 1 + k1 * r2 + k2 * r2 * r2 + k3 * r2 * r2 * r2
  (rdist + x * (k1 * dr2dx + k2 * dr2dx * 2 * r2 + k3 * dr2dx * 3 * r2 * r2) + 2 * p1 * y + p2 * (dr2dx + 4 * x),
   x * (k1 * dr2dy + k2 * dr2dy * 2 * r2 + k3 * dr2dy * 3 * r2 * r2) + 2 * p1 * x + p2 * dr2dy,
   y * (k1 * dr2dx + k2 * dr2dx * 2 * r2 + k3 * dr2dx * 3 * r2 * r2) + (p1 * dr2dx + 2 * p2 * y),
   rdist + y * (k1 * dr2dy + k2 * dr2dy * 2 * r2 + k3 * dr2dy * 3 * r2 * r2) + p1 * (dr2dy + 4 * y) + 2 * p2 * x)

/-- `TsaiLensDistortion::distorted_coordinates` (src/vw/Camera/LensDistortion.cc:345-369). -/
noncomputable def tsaiDistorted (tiny : ℝ) (dist : List ℝ) (cam : Cam ℝ) (p : V2 ℝ) : Option (V2 ℝ) :=
  frame tiny (tsaiNorm dist) cam p

/-- `TsaiLensDistortion::undistorted_coordinates` (src/vw/Camera/LensDistortion.cc:371-402). -/
noncomputable def tsaiUndistorted (tiny big : ℝ) (dist : List ℝ) (cam : Cam ℝ) (p : V2 ℝ) : Option (V2 ℝ) :=
  frame tiny (newtonInv big (tsaiNorm dist) (some (tsaiJac dist))) cam p

/-- `TsaiLensDistortion::scale` and `PhotometrixLensDistortion::scale` (src/vw/Camera/LensDistortion.cc:414-416, 1011-1013). -/
noncomputable def scale (dist : List ℝ) (s : ℝ) : List ℝ := dist.map (· * s)

/-! ### Field of view -/

/-- What `FovLensDistortion` keeps (src/vw/Camera/LensDistortion.cc:441-456). -/
structure Fov where
  k : ℝ
  pre1 : ℝ
  pre2 : ℝ

/-- `FovLensDistortion::set_distortion_parameters` (src/vw/Camera/LensDistortion.cc:441-456). -/
noncomputable def fovSet (params : List ℝ) : Option Fov :=
  if params.length ≠ 1 then none
  else if params.getD 0 0 ≤ 0 then none
  else some ⟨params.getD 0 0, 1 / params.getD 0 0, 2 * tan (params.getD 0 0 / 2)⟩

/-- The normalised part of `FovLensDistortion::distorted_coordinates` (src/vw/Camera/LensDistortion.cc:475-482). -/
noncomputable def fovNorm (L : Fov) (p : V2 ℝ) : V2 ℝ :=
  let ru := norm2 p
  let rd := arctan (ru * L.pre2) * L.pre1
  let conv := if ru > 1 / 100000000 then rd / ru else 1
  (conv * p.1, conv * p.2)

/-- The normalised part of `FovLensDistortion::undistorted_coordinates` (src/vw/Camera/LensDistortion.cc:502-509). -/
noncomputable def fovInv (L : Fov) (p : V2 ℝ) : V2 ℝ :=
  let rd := norm2 p
  let ru := tan (rd * L.k) / L.pre2
  let conv := if rd > 1 / 100000000 then ru / rd else 1
  (conv * p.1, conv * p.2)

/-- `FovLensDistortion::distorted_coordinates` (src/vw/Camera/LensDistortion.cc:463-488). -/
noncomputable def fovDistorted (tiny : ℝ) (L : Fov) (cam : Cam ℝ) (p : V2 ℝ) : Option (V2 ℝ) := frame tiny (fovNorm L) cam p

/-- `FovLensDistortion::undistorted_coordinates` (src/vw/Camera/LensDistortion.cc:490-515). -/
noncomputable def fovUndistorted (tiny : ℝ) (L : Fov) (cam : Cam ℝ) (p : V2 ℝ) : Option (V2 ℝ) := frame tiny (fovInv L) cam p

/-! ### Fisheye -/

/-- `fishEyeDistortionNorm` (src/vw/Camera/LensDistortion.cc:573-598). -/
noncomputable def fisheyeNorm (dist : List ℝ) (P : V2 ℝ) : V2 ℝ :=
  let k1 := dist.getD 0 0
  let k2 := dist.getD 1 0
  let k3 := dist.getD 2 0
  let k4 := dist.getD 3 0
  let x := P.1
  let y := P.2
  let r2 := x * x + y * y
  let r := √r2
  let theta := arctan r
  let theta1 := theta * theta
  let theta2 := theta1 * theta1
  let theta3 := theta2 * theta1
  let theta4 := theta2 * theta2
  let thetaD := theta * (1 + k1 * theta1 + k2 * theta2 + k3 * theta3 + k4 * theta4)
  let s := if r > 1 / 100000000 then thetaD / r else 1
  (x * s, y * s)

/-- `FisheyeLensDistortion::distorted_coordinates` (src/vw/Camera/LensDistortion.cc:612-632). -/
noncomputable def fisheyeDistorted (tiny : ℝ) (dist : List ℝ) (cam : Cam ℝ) (p : V2 ℝ) : Option (V2 ℝ) :=
  frame tiny (fisheyeNorm dist) cam p

/-- `FisheyeLensDistortion::undistorted_coordinates` (src/vw/Camera/LensDistortion.cc:634-659). -/
noncomputable def fisheyeUndistorted (tiny big : ℝ) (dist : List ℝ) (cam : Cam ℝ) (p : V2 ℝ) : Option (V2 ℝ) :=
  frame tiny (newtonInv big (fisheyeNorm dist) none) cam p

/-! ### Adjustable Tsai -/

/-- The loop over the radial coefficients (src/vw/Camera/LensDistortion.cc:804-808) on `r_n` and `radial`. -/
noncomputable def radialLoop (r2 : ℝ) : List ℝ → ℝ × ℝ → ℝ × ℝ
  | [], s => s
  | k :: ks, s => radialLoop r2 ks (s.1 * r2, s.2 + k * (s.1 * r2))

/-- `AdjTsaiDistortionNorm` (src/vw/Camera/LensDistortion.cc:799-824). -/
noncomputable def adjNorm (dist : List ℝ) (p : V2 ℝ) : V2 ℝ :=
  let n := dist.length
  let r2 := p.1 * p.1 + p.2 * p.2
  let radial := (radialLoop r2 (dist.take (n - 3)) (1, 0)).2
  let swap : V2 ℝ := (dist.getD (n - 2) 0, dist.getD (n - 3) 0)
  let t1 : V2 ℝ := (swap.1 * (r2 + 2 * (p.1 * p.1)), swap.2 * (r2 + 2 * (p.2 * p.2)))
  let t2 : V2 ℝ := (t1.1 + 2 * (p.1 * p.2) * dist.getD (n - 3) 0, t1.2 + 2 * (p.1 * p.2) * dist.getD (n - 2) 0)
  let res : V2 ℝ := (p.1 + t2.1 + radial * p.1, p.2 + t2.2 + radial * p.2)
  (res.1 + dist.getD (n - 1) 0 * res.2, res.2)

/-- `AdjustableTsaiLensDistortion::distorted_coordinates` (src/vw/Camera/LensDistortion.cc:832-849). -/
noncomputable def adjDistorted (tiny : ℝ) (dist : List ℝ) (cam : Cam ℝ) (p : V2 ℝ) : Option (V2 ℝ) :=
  frame tiny (adjNorm dist) cam p

/-- `AdjustableTsaiLensDistortion::undistorted_coordinates` (src/vw/Camera/LensDistortion.cc:851-882). -/
noncomputable def adjUndistorted (tiny big : ℝ) (dist : List ℝ) (cam : Cam ℝ) (p : V2 ℝ) : Option (V2 ℝ) :=
  frame tiny (newtonInv big (adjNorm dist) none) cam p

/-! ### Brown-Conrady and Photometrix -/

/-- `BrownConradyDistortion::undistorted_coordinates` (src/vw/Camera/LensDistortion.cc:731-746), with the eight parameters
in the order of the constructor. -/
noncomputable def brownUndistorted (par : List ℝ) (cam : Cam ℝ) (p : V2 ℝ) : V2 ℝ :=
  let i : V2 ℝ := (p.1 - par.getD 0 0 - cam.offset.1, p.2 - par.getD 1 0 - cam.offset.2)
  let r2 := i.1 * i.1 + i.2 * i.2
  let radial := 1 + par.getD 2 0 * r2 + par.getD 3 0 * r2 * r2 + par.getD 4 0 * r2 * r2 * r2
  let tangential := par.getD 5 0 * r2 + par.getD 6 0 * r2 * r2
  (i.1 * radial - tangential * sin (par.getD 7 0) + cam.offset.1, i.2 * radial + tangential * cos (par.getD 7 0) + cam.offset.2)

/-- `PhotometrixLensDistortion::undistorted_coordinates` (src/vw/Camera/LensDistortion.cc:961-999). -/
noncomputable def photoUndistorted (par : List ℝ) (cam : Cam ℝ) (p : V2 ℝ) : V2 ℝ :=
  let xp := par.getD 0 0 + cam.offset.1
  let yp := par.getD 1 0 + cam.offset.2
  let x := p.1 - xp
  let y := p.2 - yp
  let x2 := x * x
  let y2 := y * y
  let r2 := x2 + y2
  let drr := par.getD 2 0 * r2 + par.getD 3 0 * r2 * r2 + par.getD 4 0 * r2 * r2 * r2
  (p.1 + x * drr + par.getD 5 0 * (r2 + 2 * x2) + 2 * par.getD 6 0 * x * y,
   p.2 + y * drr + par.getD 6 0 * (r2 + 2 * y2) + 2 * par.getD 5 0 * x * y)

/-- `LensDistortion::distorted_coordinates` (src/vw/Camera/LensDistortion.cc:176-196), used by these two models: `undist` is
the model's own function and `solve` the Levenberg-Marquardt solver, about which nothing is assumed. -/
noncomputable def genericDistorted (undist : V2 ℝ → V2 ℝ) (solve : V2 ℝ → V2 ℝ) (v : V2 ℝ) : Option (V2 ℝ) :=
  let s := solve v
  let u := undist s
  let err := norm2 (u.1 - v.1, u.2 - v.2) / max (norm2 v) 0.1
  if err > 1 / 10 ^ 10 then none else some s

/-! ### Parameters in files -/

/-- The lines that hold a name and a number, in a file (src/vw/Camera/LensDistortion.cc:58-71). -/
abbrev Fields := List (String × ℝ)

/-- `name2val.find` after all lines were put into the map (src/vw/Camera/LensDistortion.cc:71, 79): the last one. -/
def lookup (f : Fields) (name : String) : Option ℝ := (f.reverse.find? (·.1 = name)).map (·.2)

/-- `read_fields_in_vec` (src/vw/Camera/LensDistortion.cc:51-91), when there is room for the values. -/
def readFields (missingOk : List String) (f : Fields) : List String → Option (List ℝ)
  | [] => some []
  | n :: ns =>
    match lookup f n with
    | some v => (readFields missingOk f ns).map (v :: ·)
    | none => if missingOk.contains n then (readFields missingOk f ns).map (0 :: ·) else none

/-- `write` of the models with named parameters, for instance src/vw/Camera/LensDistortion.cc:404-407. -/
def writeFields (names : List String) (vals : List ℝ) : Fields := names.zip vals

/-- The names, in order (src/vw/Camera/LensDistortion.cc:240). -/
def tsaiNames : List String := ["k1", "k2", "p1", "p2", "k3"]
/-- See src/vw/Camera/LensDistortion.cc:434. -/
def fovNames : List String := ["k1"]
/-- See src/vw/Camera/LensDistortion.cc:552. -/
def fisheyeNames : List String := ["k1", "k2", "k3", "k4"]
/-- See src/vw/Camera/LensDistortion.cc:682. -/
def brownNames : List String := ["xp", "yp", "k1", "k2", "k3", "p1", "p2", "phi"]
/-- See src/vw/Camera/LensDistortion.cc:935-937. -/
def photoNames : List String := ["xp", "yp", "k1", "k2", "k3", "p1", "p2", "b1", "b2"]

/-- `TsaiLensDistortion::read` (src/vw/Camera/LensDistortion.cc:409-413). -/
def tsaiRead (f : Fields) : Option (List ℝ) := readFields ["k3"] f tsaiNames

/-- `FovLensDistortion::read` (src/vw/Camera/LensDistortion.cc:522-526). -/
noncomputable def fovRead (f : Fields) : Option Fov := (readFields [] f fovNames).bind fovSet

end Verif.Camera.Lens
