import Verif.Camera.AxisProps
import Mathlib.Analysis.SpecialFunctions.Trigonometric.Arctan
import Mathlib.Analysis.SpecialFunctions.Pow.Real

/-
Model of src/vw/Cartography/Datum.{h,cc}: the geometry of the spheroid.  Numbers are the reals; a result that is not a number
(a division by zero, a power of a negative number) is no value.  Names, WKT and PROJ strings are not modelled.
-/

namespace Verif.Datum
open Verif.Camera Real

/-- The members with a geometric meaning (src/vw/Cartography/Datum.h:48-53): semi-axes and meridian offset in degrees. -/
structure Spheroid where
  a : ℝ
  b : ℝ
  off : ℝ

/-- The squared eccentricity (for example src/vw/Cartography/Datum.cc:351-355). -/
noncomputable def Spheroid.e2 (d : Spheroid) : ℝ := (d.a * d.a - d.b * d.b) / (d.a * d.a)

/-- The clamp of a latitude (src/vw/Cartography/Datum.cc:357-359). -/
noncomputable def clampLat (lat : ℝ) : ℝ :=
  let lat := if lat < -90 then -90 else lat
  if 90 < lat then 90 else lat

/-- `geodetic_to_cartesian` (src/vw/Cartography/Datum.cc:349-372); the argument is longitude, latitude and height. -/
noncomputable def Spheroid.toCartesian (d : Spheroid) (llh : V3 ℝ) : V3 ℝ :=
  let rlon := (llh.x + d.off) * (π / 180)
  let rlat := clampLat llh.y * (π / 180)
  let radius := d.a / √(1 - d.e2 * sin rlat * sin rlat)
  ⟨(radius + llh.z) * cos rlat * cos rlon, (radius + llh.z) * cos rlat * sin rlon, (radius * (1 - d.e2) + llh.z) * sin rlat⟩

/-- `pow` where the exponent is not an integer: no value when it is not a number (a negative base) or infinite. -/
noncomputable def cpow (x y : ℝ) : Option ℝ := if 0 < x ∨ (x = 0 ∧ 0 < y) then some (x ^ y) else none

/-- What the choice among the five cases gives: the auxiliary number `u`, or latitude (radians) and height at once, or nothing
(`u` is not a number). -/
inductive Case where
  | u (u : ℝ)
  | direct (lat h : ℝ)
  | nothing

/-- `u` outside the evolute (src/vw/Cartography/Datum.cc:397-402). -/
noncomputable def caseOutside (e4 p q r ev : ℝ) : Case :=
  match cpow (√ev + √(e4 * p * q)) (2 / 3), cpow (√ev - √(e4 * p * q)) (2 / 3) with
  | some x, some y => .u (r + 1 / 2 * x + 1 / 2 * y)
  | _, _ => .nothing

/-- `u` near the cusps of the evolute (src/vw/Cartography/Datum.cc:416-419); when the evolute is negative its root is not a
number. -/
noncomputable def caseCusp (e4 p q r ev : ℝ) : Case :=
  if ev < 0 then .nothing
  else match cpow (√ev + √(e4 * p * q)) (2 / 3), cpow (√ev + √(e4 * p * q)) (-(2 / 3)) with
    | some x, some y => .u (r + 1 / 2 * x + 2 * r * r * y)
    | _, _ => .nothing

/-- The five cases of `cartesian_to_geodetic` (src/vw/Cartography/Datum.cc:386-420); `n` is the norm of the point, `eps` the
machine epsilon. -/
noncomputable def geodeticCase (eps a e2 p q n z : ℝ) : Case :=
  let e4 := e2 * e2
  let r := (p + q - e4) / 6
  let r3 := r * r * r
  let ev := 8 * r3 + e4 * p * q
  if 0 < ev then caseOutside e4 p q r ev
  else if |z| < eps then .direct 0 (n - a)
  else if ev < 0 ∧ eps < |q| then
    let t := atan2 (√(e4 * p * q)) (√(-ev) + √(-8 * r3))
    .u (-4 * r * sin (2 / 3 * t) * cos (π / 6 + 2 / 3 * t))
  else if |q| < eps ∧ p ≤ e4 then
    .direct (2 * atan2 (√(e4 - p)) (√(e2 * (e2 - p)) + √(1 - e2) * √p)) (-a * √(1 - e2) * √(e2 - p) / √e2)
  else caseCusp e4 p q r ev

/-- Latitude (radians) and height from `u` (src/vw/Cartography/Datum.cc:422-431). -/
noncomputable def fromU (e2 q xy z u : ℝ) : ℝ × ℝ :=
  let v := √(u * u + e2 * e2 * q)
  let uv := u + v
  let w := e2 * (uv - q) / (2 * v)
  let k := uv / (w + √(w * w + uv))
  let D := k * xy / (k + e2)
  let dist2 := D * D + z * z
  (2 * atan2 z (√dist2 + D), (k + e2 - 1) * √dist2 / k)

/-- The longitude in degrees before the offset is taken off (src/vw/Cartography/Datum.cc:433-442). -/
noncomputable def longitude (x y xy : ℝ) : ℝ :=
  if (√2 - 1) * y < xy + x then 360 * atan2 y (xy + x) / π
  else if xy + y < (√2 + 1) * x then -90 + 360 * atan2 x (xy - y) / π
  else 90 - 360 * atan2 x (xy + y) / π

/-- Latitude (radians) and height of a case: zeroes when `u` is not a number, for the result starts with zeroes
(src/vw/Cartography/Datum.cc:391, 422). -/
noncomputable def latHeight (c : Case) (e2 q xy z : ℝ) : ℝ × ℝ :=
  match c with
  | .u u => fromU e2 q xy z u
  | .direct lat h => (lat, h)
  | .nothing => (0, 0)

/-- `cartesian_to_geodetic` (src/vw/Cartography/Datum.cc:380-447).  Simplified: `1 - b2 / a2` is written as `e2`, the same number. -/
noncomputable def Spheroid.toGeodetic (eps : ℝ) (d : Spheroid) (P : V3 ℝ) : V3 ℝ :=
  let a2 := d.a * d.a
  let xy := √(P.x * P.x + P.y * P.y)
  let p := (P.x * P.x + P.y * P.y) / a2
  let q := (1 - d.e2) * P.z * P.z / a2
  let lh := latHeight (geodeticCase eps d.a d.e2 p q (norm Real.sqrt P) P.z) d.e2 q xy P.z
  ⟨longitude P.x P.y xy - d.off, lh.1 * (180 / π), lh.2⟩

/-- `radius` (src/vw/Cartography/Datum.cc:199-213). -/
noncomputable def Spheroid.radius (d : Spheroid) (lat : ℝ) : ℝ :=
  if d.a = d.b then d.a
  else
    let t := arctan ((d.a / d.b) * tan (lat * π / 180))
    let x := d.a * cos t
    let y := d.b * sin t
    √(x * x + y * y)

/-- `geocentric_latitude` (src/vw/Cartography/Datum.cc:215-229). -/
noncomputable def Spheroid.geocentricLatitude (d : Spheroid) (lat : ℝ) : ℝ :=
  if d.a = d.b then d.a else arctan ((1 - d.e2) * tan (lat * π / 180))

/-- `radius_of_curvature` (src/vw/Cartography/Datum.cc:231-245). -/
noncomputable def Spheroid.radiusOfCurvature (d : Spheroid) (lat : ℝ) : ℝ :=
  if d.a = d.b then d.a else d.a / √(1 - d.e2 * sin (π / 180 * lat) * sin (π / 180 * lat))

/-- `geocentric_radius` (src/vw/Cartography/Datum.cc:248-264). -/
noncomputable def Spheroid.geocentricRadius (d : Spheroid) (lat alt : ℝ) : ℝ :=
  if d.a = d.b then d.a + alt
  else
    let rlat := lat * (π / 180)
    let Rn := d.a / √(1 - d.e2 * sin rlat * sin rlat) + alt
    √(Rn * Rn * (cos rlat * cos rlat + (1 - d.e2) * (1 - d.e2) * sin rlat * sin rlat))

/-- `inverse_flattening` (src/vw/Cartography/Datum.cc:266-270). -/
noncomputable def Spheroid.inverseFlattening (d : Spheroid) : ℝ := if d.a = d.b then 0 else 1 / (1 - d.b / d.a)

/-- The three axes of `lonlat_to_ned_matrix` (src/vw/Cartography/Datum.cc:274-323), before they are made units: north, east,
down. -/
noncomputable def Spheroid.nedRaw (d : Spheroid) (llh : V3 ℝ) : V3 ℝ × V3 ℝ × V3 ℝ :=
  let lon := llh.x
  let lat := clampLat llh.y
  let h := llh.z
  let tol : ℝ := 1 / 10000
  let tol2 := tol * 1000
  let latP := min (lat + tol) 90
  let latM := max (lat - tol) (-90)
  ((1 / (latP - latM)) * (d.toCartesian ⟨lon, latP, 0⟩ - d.toCartesian ⟨lon, latM, 0⟩),
   (1 / (lon + tol - (lon - tol))) * (d.toCartesian ⟨lon + tol, lat, 0⟩ - d.toCartesian ⟨lon - tol, lat, 0⟩),
   -((1 / (h + tol2 - (h - tol2))) * (d.toCartesian ⟨lon, lat, h + tol2⟩ - d.toCartesian ⟨lon, lat, h - tol2⟩)))

/-- `lonlat_to_ned_matrix` (src/vw/Cartography/Datum.cc:274-330), by columns: north, east, down; no value in a column: not a
number. -/
noncomputable def Spheroid.ned (d : Spheroid) (llh : V3 ℝ) : Option (V3 ℝ) × Option (V3 ℝ) × Option (V3 ℝ) :=
  (normalize Real.sqrt (d.nedRaw llh).1, normalize Real.sqrt (d.nedRaw llh).2.1, normalize Real.sqrt (d.nedRaw llh).2.2)

/-- `datum_intersection` (src/vw/Cartography/Datum.cc:533-559); no value: not a number.  The zero vector means that there is no
intersection. -/
noncomputable def intersect (a b : ℝ) (ctr dir : V3 ℝ) : Option (V3 ℝ) :=
  let zs := a / b
  let ctr : V3 ℝ := ⟨ctr.x, ctr.y, ctr.z * zs⟩
  (normalize Real.sqrt (⟨dir.x, dir.y, dir.z * zs⟩ : V3 ℝ)).map fun dir =>
    let r2 := a * a
    let alpha := -dot ctr dir
    let proj := ctr + alpha * dir
    if r2 < dot proj proj then 0
    else
      let alpha := alpha - √(r2 - dot proj proj)
      let i := ctr + alpha * dir
      ⟨i.x, i.y, i.z / zs⟩

end Verif.Datum
