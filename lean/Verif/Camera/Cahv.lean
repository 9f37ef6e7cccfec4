import Verif.Camera.Stereo

/-
Model of src/vw/Camera/CAHVModel.{h,cc}.  Numbers are exact, `sqrt` is the square root; a division by zero is a missing
value.  Reading and writing of files is not modelled.
-/

namespace Verif.Camera

variable {K : Type} [Field K] [LinearOrder K]

/-- `norm_2` (src/vw/Math/Vector.h:1602-1604). -/
def norm (sqrt : K → K) (v : V3 K) : K := sqrt (sq v)

/-- `normalize` (src/vw/Math/Vector.h:1691-1696); the zero vector gives NaN. -/
def normalize (sqrt : K → K) (v : V3 K) : Option (V3 K) :=
  if sq v = 0 then none else some ((1 / norm sqrt v) * v)

/-- `CAHVModel` (src/vw/Camera/CAHVModel.h:135-138). -/
structure Cahv (K : Type) where
  C : V3 K
  A : V3 K
  H : V3 K
  V : V3 K

/-- `CAHVModel::point_to_pixel` (src/vw/Camera/CAHVModel.cc:167-171). -/
def Cahv.pointToPixel (m : Cahv K) (p : V3 K) : Option (K × K) :=
  let dDot := dot (p - m.C) m.A
  if dDot = 0 then none else some (dot (p - m.C) m.H / dDot, dot (p - m.C) m.V / dDot)

/-- `CAHVModel::pixel_to_vector` (src/vw/Camera/CAHVModel.cc:173-185). -/
def Cahv.pixelToVector (sqrt : K → K) (m : Cahv K) (pix : K × K) : Option (V3 K) :=
  (normalize sqrt (cross (m.V - pix.2 * m.A) (m.H - pix.1 * m.A))).map
    (fun vec => if dot (cross m.V m.H) m.A < 0 then (-1 : K) * vec else vec)

/-- The camera as the stereo model sees it; `camera_center` (src/vw/Camera/CAHVModel.cc:187-189). -/
def Cahv.cam (sqrt : K → K) (m : Cahv K) : Cam K := ⟨m.pixelToVector sqrt, fun _ => m.C⟩

/-- The constructor from pinhole parameters (src/vw/Camera/CAHVModel.cc:156-165); also `read_pinhole`
(src/vw/Camera/CAHVModel.cc:288-292). -/
def Cahv.ofPinholeParams (f sx sy Hc Vc : K) (C A Hvec Vvec : V3 K) : Cahv K :=
  ⟨C, A, (f / sx) * Hvec + Hc * A, (f / sy) * Vvec + Vc * A⟩

/-- The constructor from a view matrix (src/vw/Camera/CAHVModel.cc:138-154); the matrix by row and column. -/
def Cahv.ofView (f sx sy xmin ymin : K) (v : Nat → Nat → K) : Cahv K :=
  let A : V3 K := ⟨v 2 0, v 2 1, v 2 2⟩
  ⟨⟨v 3 0, v 3 1, v 3 2⟩, A, (f / sx) * (⟨v 0 0, v 0 1, v 0 2⟩ : V3 K) + (-xmin) * A,
    (f / sy) * (⟨v 1 0, v 1 1, v 1 2⟩ : V3 K) + (-ymin) * A⟩

/-- `epipolar` (src/vw/Camera/CAHVModel.cc:297-338). -/
def epipolar (sqrt : K → K) (s0 s1 : Cahv K) : Option (Cahv K × Cahv K) :=
  let hc := dot s0.H s0.A / 2 + dot s1.H s1.A / 2
  let vc := dot s0.V s0.A / 2 + dot s1.V s1.A / 2
  let hs := norm sqrt (cross s0.A s0.H) / 2 + norm sqrt (cross s1.A s1.H) / 2
  let vs := norm sqrt (cross s0.A s0.V) / 2 + norm sqrt (cross s1.A s1.V) / 2
  let app := s0.A + s1.A
  let f := cross (cross app (s1.C - s0.C)) app
  if norm sqrt f = 0 ∨ hs = 0 then none
  else
    let hp := if 0 < dot f s0.H then (hs / norm sqrt f) * f else (hs / norm sqrt f) * (-f)
    let app := (1 / 2 : K) * app
    let g := (dot app hp / (hs * hs)) * hp
    match normalize sqrt (app - g) with
    | none => none
    | some a =>
      let vp := (vs / hs) * cross a hp
      some (⟨s0.C, a, hp + hc * a, vp + vc * a⟩, ⟨s1.C, a, hp + hc * a, vp + vc * a⟩)

end Verif.Camera
