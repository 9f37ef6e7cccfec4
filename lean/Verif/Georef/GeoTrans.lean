import Verif.Georef.Model

/-
Model of src/vw/Cartography/GeoTransform.{h,cc}.  Numbers are exact.  The conversion between two datums (PROJ) is not modelled:
the constructor throws unless it is found to be the identity.
-/

namespace Verif.Georef
open Verif.Camera VW.BBox

variable {K : Type} [Field K] [LinearOrder K]

/-- The members that matter (src/vw/Cartography/GeoTransform.h): the two georeferences and `m_skip_map_projection`.
`m_skip_datum_conversion` is true in every object (src/vw/Cartography/GeoTransform.cc:179-184). -/
structure GT (K : Type) where
  src : Ref K
  dst : Ref K
  skip : Bool

/-- The square of `norm_2` of a difference. -/
def distSq (a b : K × K) : K := (a.1 - b.1) * (a.1 - b.1) + (a.2 - b.2) * (a.2 - b.2)

/-- Does the lower corner of the first image's longitude-latitude box survive the trip through the second georeference
(src/vw/Cartography/GeoTransform.cc:103-118)?  `tol` is `1e-8`.  No value: the projection throws. -/
def cornerSurvives (src dst : Ref K) (tol : K) : Option Bool :=
  (dst.lonlatToPoint (src.llBox.min 0, src.llBox.min 1)).bind fun pt =>
    (dst.pointToLonlat pt).map fun dstLL =>
      if distSq (src.llBox.min 0, src.llBox.min 1) dstLL > tol * tol then false else true

/-- How the constructor sets `m_skip_map_projection` (src/vw/Cartography/GeoTransform.cc:95-119). -/
def decideSkip (src dst : Ref K) (sameWkt : Bool) (tol : K) : Option Bool :=
  if sameWkt && !src.llBox.empty && !dst.llBox.empty then cornerSurvives src dst tol else some false

/-- The constructor (src/vw/Cartography/GeoTransform.cc:89-185).  `sameWkt`: the two WKT strings are equal; `sameDatum`: the datum
strings are equal or the conversion between them is the identity at the places tried; `tol` is `1e-8`.  No value: it throws. -/
def GT.make (src dst : Ref K) (sameWkt sameDatum : Bool) (tol : K) : Option (GT K) :=
  (decideSkip src dst sameWkt tol).bind fun skip =>
    if sameDatum then some ⟨src, dst, skip⟩ else none

/-- `wrapLon` (src/vw/Cartography/GeoTransform.cc:221-226). -/
def wrapLon (lon : K) : K :=
  let lon := if lon > 180 then lon - 360 else lon
  if lon < -180 then lon + 360 else lon

/-- `forward` (src/vw/Cartography/GeoTransform.cc:251-268). -/
def GT.forward (t : GT K) (v : K × K) : Option (K × K) :=
  if t.skip then some (t.dst.pointToPixel (t.src.pixelToPoint v))
  else (t.src.pixelToLonlat v).bind fun ll =>
    t.dst.lonlatToPixel (if t.dst.projected then (wrapLon ll.1, ll.2) else ll)

/-- `reverse` (src/vw/Cartography/GeoTransform.cc:229-246). -/
def GT.reverse (t : GT K) (v : K × K) : Option (K × K) :=
  if t.skip then some (t.src.pointToPixel (t.dst.pixelToPoint v))
  else (t.dst.pixelToLonlat v).bind fun ll =>
    t.src.lonlatToPixel (if t.src.projected then (wrapLon ll.1, ll.2) else ll)

/-- `point_to_point` (src/vw/Cartography/GeoTransform.cc:305-313). -/
def GT.pointToPoint (t : GT K) (v : K × K) : Option (K × K) :=
  if t.skip then some v else (t.src.pointToLonlat v).bind t.dst.lonlatToPoint

/-- `pixel_to_point` (src/vw/Cartography/GeoTransform.cc:316-325). -/
def GT.pixelToPoint (t : GT K) (v : K × K) : Option (K × K) :=
  if t.skip then some (t.src.pixelToPoint v) else (t.src.pointToLonlat (t.src.pixelToPoint v)).bind t.dst.lonlatToPoint

/-- `point_to_pixel` (src/vw/Cartography/GeoTransform.cc:327-336). -/
def GT.pointToPixel (t : GT K) (v : K × K) : Option (K × K) :=
  if t.skip then some (t.dst.pointToPixel v) else (t.src.pointToLonlat v).bind t.dst.lonlatToPixel

/-- One pixel of `reproject_point_image` (src/vw/Cartography/GeoTransform.cc:463-482); no value: an exception. -/
def GT.reproject (t : GT K) (v : V3 K) : Option (V3 K) :=
  if v.x = 0 ∧ v.y = 0 ∧ v.z = 0 then some v else (t.forward (v.x, v.y)).map fun o => ⟨o.1, o.2, v.z⟩

section floor
variable [FloorRing K] [IsStrictOrderedRing K]

/-- `forward_bbox` (src/vw/Cartography/GeoTransform.cc:271-286). -/
def GT.forwardBox (t : GT K) (b : Box K 2) : Box Int 2 :=
  if b.empty then Box.default 2 big32 else growToInt (growSome ((sampleInt b).map t.forward))

/-- `reverse_bbox` (src/vw/Cartography/GeoTransform.cc:289-303). -/
def GT.reverseBox (t : GT K) (b : Box K 2) : Box Int 2 :=
  if b.empty then Box.default 2 big32 else growToInt (growSome ((sampleInt b).map t.reverse))

/-- `point_to_point_bbox` (src/vw/Cartography/GeoTransform.cc:376-394), 100 steps. -/
def GT.pointToPointBox (t : GT K) (b : Box K 2) : Box K 2 :=
  if b.empty then noBox else growSome ((sampleFloat b 100).map t.pointToPoint)

/-- `pixel_to_point_bbox` (src/vw/Cartography/GeoTransform.cc:416-433). -/
def GT.pixelToPointBox (t : GT K) (b : Box K 2) : Box K 2 :=
  if b.empty then noBox else growSome ((sampleInt b).map t.pixelToPoint)

/-- `point_to_pixel_bbox` (src/vw/Cartography/GeoTransform.cc:435-453), 100 steps. -/
def GT.pointToPixelBox (t : GT K) (b : Box K 2) : Box Int 2 :=
  if b.empty then Box.default 2 big32 else growToInt (growSome ((sampleFloat b 100).map t.pointToPixel))

end floor
end Verif.Georef
