import Mathlib.Data.Rat.Floor
import Mathlib.Algebra.Field.Rat
import Mathlib.Tactic.Linarith
/-
Model of `src/vw/Cartography/Utm.cc`.  Coordinates are rational numbers (every finite `double` is one;
rounding of `longitude += 360` and of the division is not modelled).  NaN and infinite longitudes, which
the code rejects with ArgumentErr, are outside the type.
-/
namespace VW.Utm

theorem wrapUp_dec {lon : ℚ} (h : lon < -180) : ⌈-180 - (lon + 360)⌉.toNat < ⌈-180 - lon⌉.toNat := by
  have h1 : 0 < ⌈-180 - lon⌉ := Int.ceil_pos.2 (by linarith)
  have h2 : ⌈-180 - (lon + 360)⌉ = ⌈-180 - lon⌉ - 360 := by
    rw [show -180 - (lon + 360) = (-180 - lon) - (360 : Int) by push_cast; ring, Int.ceil_sub_intCast]
  omega

theorem wrapDown_dec {lon : ℚ} (h : lon > 180) : ⌈(lon - 360) - 180⌉.toNat < ⌈lon - 180⌉.toNat := by
  have h1 : 0 < ⌈lon - 180⌉ := Int.ceil_pos.2 (by linarith)
  have h2 : ⌈(lon - 360) - 180⌉ = ⌈lon - 180⌉ - 360 := by
    rw [show (lon - 360) - 180 = (lon - 180) - (360 : Int) by push_cast; ring, Int.ceil_sub_intCast]
  omega

/-- `while (longitude < -180) longitude += 360`, Utm.cc:35. -/
def wrapUp (lon : ℚ) : ℚ := if lon < -180 then wrapUp (lon + 360) else lon
termination_by ⌈-180 - lon⌉.toNat
decreasing_by exact wrapUp_dec (by assumption)

/-- `while (longitude > 180) longitude -= 360`, Utm.cc:36. -/
def wrapDown (lon : ℚ) : ℚ := if lon > 180 then wrapDown (lon - 360) else lon
termination_by ⌈lon - 180⌉.toNat
decreasing_by exact wrapDown_dec (by assumption)

/-- `static_cast<int>`: truncation towards zero. -/
def toInt (q : ℚ) : Int := if 0 ≤ q then ⌊q⌋ else ⌈q⌉

/-- `getLongitudeZone`, Utm.cc:29-38. -/
def longitudeZone (lon : ℚ) : Int := toInt ((wrapDown (wrapUp lon) + 180) / 6) + 1

/-- `bands`, Utm.cc:45, a C string: 20 letters and the terminating NUL. -/
def bands : List Char := "CDEFGHJKLMNPQRSTUVWX".toList ++ ['\x00']

/-- `getLatitudeBand`, Utm.cc:40-52.  `none`: a read outside the array. -/
def latitudeBand (lat : ℚ) : Option Char :=
  let lat := if lat < -90 then -90 else lat
  let lat := if lat > 90 then 90 else lat
  if lat < -80 then some 'A'
  else if lat > 84 then some 'Z'
  else
    let i := toInt ((lat + 80) / 8)
    if 0 ≤ i then bands[i.toNat]? else none

/-- `getUTMZone`, Utm.cc:56-76. -/
def getUTMZone (lat lon : ℚ) : Int :=
  let zone := longitudeZone lon
  let band := latitudeBand lat
  let zone := if band = some 'V' ∧ zone = 31 ∧ lon ≥ 3 then 32 else zone
  if band = some 'X' then
    if lon ≥ 0 ∧ lon < 9 then 31
    else if lon ≥ 9 ∧ lon < 21 then 33
    else if lon ≥ 21 ∧ lon < 33 then 35
    else if lon ≥ 33 ∧ lon < 42 then 37
    else zone
  else zone

end VW.Utm
