import Verif.Camera.Pinhole
import Verif.BBox.Model
import Verif.Line.Model

/-
Model of src/vw/Cartography/GeoReference.{h,cc} and of `crop` and `resample` in
src/vw/Cartography/GeoReferenceUtils.cc: the affine transform, the two pixel interpretations, the longitude box and the
bounding boxes.  Numbers are exact.  The map projection (GDAL's `Transform`) is a pair of partial functions, one for each
direction; no value: it fails.  Datums, WKT strings and files are not modelled.  A division by zero (only possible when the
bottom row of the transform is not `0 0 1`, or for a scale or number of samples of zero) is not given its C++ value: the
theorems exclude it.
-/

namespace Verif.Georef
open Verif.Camera VW.BBox

variable {K : Type} [Field K] [LinearOrder K]

/-- What is thrown: `MathErr` by `inverse`, `ArgumentErr` by a failed projection. -/
inductive Err where
  | math
  | arg
  deriving DecidableEq

/-- The members (src/vw/Cartography/GeoReference.h:118-134).  `area`: the pixel interpretation is `PixelAsArea`. -/
structure Ref (K : Type) where
  area : Bool
  /-- `m_transform` -/
  tr : M3 K
  /-- `m_inv_transform` -/
  inv : M3 K
  /-- `m_shifted_transform` -/
  sh : M3 K
  /-- `m_inv_shifted_transform` -/
  invSh : M3 K
  projected : Bool
  /-- `m_proj_context.m_proj_to_lonlat->Transform` -/
  toLL : K × K → Option (K × K)
  /-- `m_proj_context.m_lonlat_to_proj->Transform` -/
  toProj : K × K → Option (K × K)
  /-- `m_image_ll_box` -/
  llBox : Box K 2

/-- A point as a box takes it. -/
def vec (p : K × K) : Fin 2 → K := fun i => if i = 0 then p.1 else p.2

/-- `BBox2()` (src/vw/Math/BBox.tcc:38-45). -/
def noBox : Box K 2 := Box.default 2 ((big32 : Int) : K)

/-- `BBox2(x, y, w, h)` (src/vw/Math/BBox.h). -/
def boxXYWH (x y w h : K) : Box K 2 := ⟨vec (x, y), vec (x + w, y + h)⟩

/-- The homogeneous transform applied by `pixel_to_point` and `point_to_pixel`
(src/vw/Cartography/GeoReference.cc:851-855, 862-866). -/
def apply (M : M3 K) (p : K × K) : K × K :=
  let denom := p.1 * M.r2.x + p.2 * M.r2.y + M.r2.z
  ((p.1 * M.r0.x + p.2 * M.r0.y + M.r0.z) / denom, (p.1 * M.r1.x + p.2 * M.r1.y + M.r1.z) / denom)

/-- The shifted transform of `set_transform` (src/vw/Cartography/GeoReference.cc:421-423). -/
def shift (M : M3 K) : M3 K :=
  { M with r0 := { M.r0 with z := M.r0.z + (1 / 2) * M.r0.x }, r1 := { M.r1 with z := M.r1.z + (1 / 2) * M.r1.y } }

/-- `pixel_to_point` (src/vw/Cartography/GeoReference.cc:848-856, with `vw_native_transform`, 461-466). -/
def Ref.pixelToPoint (g : Ref K) (p : K × K) : K × K := apply (if g.area then g.sh else g.tr) p

/-- `point_to_pixel` (src/vw/Cartography/GeoReference.cc:859-867, with `vw_native_inverse_transform`, 468-473). -/
def Ref.pointToPixel (g : Ref K) (p : K × K) : K × K := apply (if g.area then g.invSh else g.inv) p

/-- `point_to_lonlat` (src/vw/Cartography/GeoReference.cc:871-884); no value: `ArgumentErr`. -/
def Ref.pointToLonlat (g : Ref K) (p : K × K) : Option (K × K) := if !g.projected then some p else g.toLL p

/-- The first half of the adjustment of a longitude (src/vw/Cartography/GeoReference.cc:892-896). -/
def wrapDown (mid lon : K) : K := if |lon - mid - 360| < |lon - mid| then lon - 360 else lon

/-- The second half (src/vw/Cartography/GeoReference.cc:897-900). -/
def wrapUp (mid lon : K) : K := if |lon - mid + 360| < |lon - mid| then lon + 360 else lon

/-- The adjustment of the longitude in `lonlat_to_point` (src/vw/Cartography/GeoReference.cc:890-901). -/
def Ref.wrap (g : Ref K) (lon : K) : K :=
  if !g.llBox.empty then
    let mid := (g.llBox.min 0 + g.llBox.max 0) / 2
    wrapUp mid (wrapDown mid lon)
  else lon

/-- `lonlat_to_point` (src/vw/Cartography/GeoReference.cc:888-917); no value: `ArgumentErr`. -/
def Ref.lonlatToPoint (g : Ref K) (ll : K × K) : Option (K × K) :=
  let ll' := (g.wrap ll.1, ll.2)
  if !g.projected then some ll' else g.toProj ll'

/-- `pixel_to_lonlat` (src/vw/Cartography/GeoReference.h:278-280). -/
def Ref.pixelToLonlat (g : Ref K) (p : K × K) : Option (K × K) := g.pointToLonlat (g.pixelToPoint p)

/-- `lonlat_to_pixel` (src/vw/Cartography/GeoReference.cc:1276-1278). -/
def Ref.lonlatToPixel (g : Ref K) (ll : K × K) : Option (K × K) := (g.lonlatToPoint ll).map g.pointToPixel

section floor
variable [FloorRing K]

/-- C's `round`: to the nearest integer, halves away from zero. -/
def cround (x : K) : Int := if x < 0 then -⌊-x + 1 / 2⌋ else ⌊x + 1 / 2⌋

/-- The conversion of a `double` to an `int32`: towards zero.  Values out of range are not modelled. -/
def trunc (x : K) : Int := if x < 0 then -⌊-x⌋ else ⌊x⌋

/-- The integers from `a` on that are at most `b`: the loop `for (int32 x = a; x <= b; x++)`. -/
def upTo (a : Int) (b : K) : List Int := (List.range (⌊b⌋ - a + 1).toNat).map fun (k : Nat) => a + (k : Int)

/-- The pixels of a `BresenhamLine`, collected until `is_good` fails (src/vw/Math/BresenhamLine.h; model in Verif/Line). -/
def bresPixels (a b : Int × Int) : List (Int × Int) :=
  let l := VW.Line.Bres.mk' a.1 a.2 b.1 b.2
  (List.range (l.x1 - l.x).toNat).map l.at

/-- `sample_int_box` (src/vw/Cartography/GeoReference.cc:1013-1047).  The corners of the box are `double`s; the two loops and
`BresenhamLine` convert them to integers. -/
def sampleInt (b : Box K 2) : List (K × K) :=
  if b.empty then [] else
  let w := trunc (b.extent 0)
  ((upTo (trunc (b.min 0)) (b.max 0)).flatMap fun (x : Int) => [((x : K), b.min 1), ((x : K), b.max 1)]) ++
  ((upTo (trunc (b.min 1)) (b.max 1)).flatMap fun (y : Int) => [(b.min 0, (y : K)), (b.max 0, (y : K))]) ++
  ((bresPixels (trunc (b.min 0), trunc (b.min 1)) (trunc (b.max 0), trunc (b.max 1))).map fun (p : Int × Int) => ((p.1 : K), (p.2 : K))) ++
  ((bresPixels (trunc (b.min 0 + w), trunc (b.min 1)) (trunc (b.max 0 - w), trunc (b.max 1))).map
    fun (p : Int × Int) => ((p.1 : K), (p.2 : K)))

/-- `sample_float_box` (src/vw/Cartography/GeoReference.cc:1054-1100), `n` is `num_steps`. -/
def sampleFloat (b : Box K 2) (n : Nat) : List (K × K) :=
  if b.empty then [] else
  let minx := b.min 0
  let maxx := b.max 0
  let miny := b.min 1
  let maxy := b.max 1
  let rx := maxx - minx
  let ry := maxy - miny
  (List.range (n + 1)).flatMap fun (i : Nat) =>
    let r := (i : K) / (n : K)
    [(minx, miny + r * ry), (maxx, miny + r * ry), (minx + r * rx, miny), (minx + r * rx, maxy),
      (minx + r * rx, miny + r * ry), (maxx - r * rx, miny + r * ry)]

/-- Growing a box by the points of a list that have a value; the others are thrown exceptions, which the loops swallow. -/
def growSome (l : List (Option (K × K))) : Box K 2 :=
  l.foldl (fun (b : Box K 2) (o : Option (K × K)) => match o with | some p => b.growPt (vec p) | none => b) noBox

/-- The four corners of a box, in the order in which they are used. -/
def corners (b : Box K 2) : List (K × K) :=
  [(b.min 0, b.min 1), (b.max 0, b.max 1), (b.min 0, b.max 1), (b.max 0, b.min 1)]

/-- `point_to_pixel_bbox` (src/vw/Cartography/GeoReference.cc:1105-1123).  The result is a box of integers, converted to
`double` in the code. -/
def Ref.pointToPixelBox [IsStrictOrderedRing K] (g : Ref K) (b : Box K 2) : Box Int 2 :=
  if b.empty then Box.default 2 big32 else growToInt (growSome ((corners b).map fun p => some (g.pointToPixel p)))

/-- `pixel_to_point_bbox` (src/vw/Cartography/GeoReference.cc:1127-1141). -/
def Ref.pixelToPointBox (g : Ref K) (b : Box K 2) : Box K 2 :=
  if b.empty then noBox else growSome ((corners b).map fun p => some (g.pixelToPoint p))

/-- `pixel_to_lonlat_bbox` (src/vw/Cartography/GeoReference.cc:1146-1164). -/
def Ref.pixelToLonlatBox (g : Ref K) (b : Box K 2) : Box K 2 :=
  if b.empty then noBox
  else if !g.projected then g.pixelToPointBox b
  else growSome ((sampleInt b).map g.pixelToLonlat)

/-- The points at which `lonlat_to_point_bbox` and `point_to_lonlat_bbox` look
(src/vw/Cartography/GeoReference.cc:1190-1225, 1236-1268; the two are the same). -/
def samples (b : Box K 2) (n : Nat) : List (K × K) :=
  let fx := b.extent 0 / (n : K)
  let fy := b.extent 1 / (n : K)
  ((List.range n).flatMap fun (i : Nat) =>
    [(b.min 0 + (i : K) * fx, b.min 1), (b.min 0 + (i : K) * fx, b.max 1),
      (b.min 0, b.min 1 + (i : K) * fy), (b.max 0, b.min 1 + (i : K) * fy)]) ++
  ((bresPixels (0, 0) (n, n) ++ bresPixels (n, 0) (0, n)).map
    fun (p : Int × Int) => ((p.1 : K) * fx + b.min 0, (p.2 : K) * fy + b.min 1))

/-- `lonlat_to_point_bbox` (src/vw/Cartography/GeoReference.cc:1180-1228). -/
def Ref.lonlatToPointBox (g : Ref K) (b : Box K 2) (n : Nat) : Box K 2 :=
  if b.empty then noBox else growSome ((samples b n).map g.lonlatToPoint)

/-- `point_to_lonlat_bbox` (src/vw/Cartography/GeoReference.cc:1230-1271). -/
def Ref.pointToLonlatBox (g : Ref K) (b : Box K 2) (n : Nat) : Box K 2 :=
  if b.empty then noBox else growSome ((samples b n).map g.pointToLonlat)

/-- `lonlat_to_pixel_bbox` (src/vw/Cartography/GeoReference.cc:1166-1174). -/
def Ref.lonlatToPixelBox [IsStrictOrderedRing K] (g : Ref K) (b : Box K 2) (n : Nat) : Box Int 2 :=
  if b.empty then Box.default 2 big32
  else if !g.projected then g.pointToPixelBox b
  else g.pointToPixelBox (g.lonlatToPointBox b n)

/-- The small box around a multiple of 180 degrees used when the extent of the image is not known
(src/vw/Cartography/GeoReference.cc:1293-1296). -/
def aroundBox (ll : K × K) : Box K 2 :=
  let c : K × K := (180 * (cround (ll.1 / 180) : K), 180 * (cround (ll.2 / 180) : K))
  ⟨vec (c.1 - 1 / 4, c.2 - 1 / 4), vec (c.1 + 1 / 4, c.2 + 1 / 4)⟩

/-- `ll_box_from_pix_box` (src/vw/Cartography/GeoReference.cc:1284-1303). -/
def Ref.llBoxFromPix (g : Ref K) (b : Box K 2) : Ref K × Option Err :=
  if b.empty then
    match g.pixelToLonlat (0, 0) with
    | none => (g, some .arg)
    | some ll => ({ g with llBox := aroundBox ll }, none)
  else ({ g with llBox := g.pixelToLonlatBox b }, none)

/-- `set_transform` of an initialised object (src/vw/Cartography/GeoReference.cc:419-433): what is left, and what is thrown. -/
def Ref.setTransform (g : Ref K) (M : M3 K) : Ref K × Option Err :=
  let g := { g with tr := M, sh := shift M }
  match M.inverse with
  | none => (g, some .math)
  | some i =>
    let g := { g with inv := i }
    match (shift M).inverse with
    | none => (g, some .math)
    | some j => Ref.llBoxFromPix { g with invSh := j } (boxXYWH 0 0 0 0)

/-- `set_wkt` (src/vw/Cartography/GeoReference.cc:708-822), with the projection and the kind (projected or not) that GDAL finds
in the string: the longitude box is computed before the kind is stored. -/
def Ref.setWkt (g : Ref K) (toLL toProj : K × K → Option (K × K)) (projected : Bool) : Ref K × Option Err :=
  match Ref.llBoxFromPix { g with toLL := toLL, toProj := toProj } (boxXYWH 0 0 0 0) with
  | (g, some e) => (g, some e)
  | (g, none) => ({ g with projected := projected }, none)

/-- The constructor from a datum, a transform and a pixel interpretation (src/vw/Cartography/GeoReference.cc:400-413): in
geographic coordinates (`set_geographic`, 480-482).  No value: it throws. -/
def Ref.make (M : M3 K) (area : Bool) : Option (Ref K) :=
  match M.inverse, (shift M).inverse with
  | some i, some j =>
    match Ref.llBoxFromPix
        { area := area, tr := M, inv := i, sh := shift M, invSh := j, projected := false, toLL := some, toProj := some,
          llBox := noBox } (boxXYWH 0 0 0 0) with
    | (g, none) => some g
    | _ => none
  | _, _ => none

/-- `crop` (src/vw/Cartography/GeoReferenceUtils.cc:28-46). -/
def Ref.crop (g : Ref K) (x y : K) : Ref K × Option Err :=
  let t := if g.area then g.pixelToPoint (x - 1 / 2, y - 1 / 2) else g.pixelToPoint (x, y)
  g.setTransform { g.tr with r0 := { g.tr.r0 with z := t.1 }, r1 := { g.tr.r1 with z := t.2 } }

/-- `resample` (src/vw/Cartography/GeoReferenceUtils.cc:55-66). -/
def Ref.resample (g : Ref K) (sx sy : K) : Ref K × Option Err :=
  let T : M3 K := { g.tr with r0 := { g.tr.r0 with x := g.tr.r0.x / sx }, r1 := { g.tr.r1 with y := g.tr.r1.y / sy } }
  if g.area then
    let t := g.pixelToPoint (-(1 / 2 / sx), -(1 / 2 / sy))
    g.setTransform { T with r0 := { T.r0 with z := t.1 }, r1 := { T.r1 with z := t.2 } }
  else g.setTransform T

/-- What changes a georeference. -/
inductive Op (K : Type) where
  | transform (M : M3 K)
  | interp (area : Bool)
  | wkt (toLL toProj : K × K → Option (K × K)) (projected : Bool)
  | llBox (b : Box K 2)
  | llFromPix (b : Box K 2)
  | crop (x y : K)
  | resample (sx sy : K)

/-- One call (`set_pixel_interpretation`, src/vw/Cartography/GeoReference.h:193-195, and `set_image_ll_box`,
src/vw/Cartography/GeoReference.cc:1306-1308, only store their argument).  `crop` and `resample` return a new object. -/
def Ref.step (g : Ref K) : Op K → Ref K × Option Err
  | .transform M => g.setTransform M
  | .interp a => ({ g with area := a }, none)
  | .wkt f h b => g.setWkt f h b
  | .llBox b => ({ g with llBox := b }, none)
  | .llFromPix b => g.llBoxFromPix b
  | .crop x y => g.crop x y
  | .resample sx sy => g.resample sx sy

/-- The objects that a program can have, as long as nothing was thrown. -/
inductive Reach : Ref K → Prop
  | make (M : M3 K) (area : Bool) (g : Ref K) (h : Ref.make M area = some g) : Reach g
  | step (g g' : Ref K) (o : Op K) (hg : Reach g) (h : g.step o = (g', none)) : Reach g'

end floor
end Verif.Georef
