import Mathlib.Algebra.Order.AbsoluteValue.Basic
import Mathlib.Data.Rat.Defs
import Mathlib.Algebra.Order.Ring.Rat
/-
Model of src/vw/Cartography/DatumUtils.cc: what `checkDatumConsistency` does with two datums.  Of a datum only the two semi-axes
matter; numbers are exact.
-/
namespace VW.DatumCheck

/-- The semi-axes of a datum, in metres. -/
structure Axes where
  a : ℚ
  b : ℚ

/-- What can happen: nothing, a warning, an `ArgumentErr`. -/
inductive Out
  | quiet
  | warn
  | fail
deriving DecidableEq

/-- `checkDatumConsistency`, DatumUtils.cc:26-57. -/
def check (d1 d2 : Axes) (warnOnly : Bool) : Out :=
  let err1 := |d1.a - d2.a|
  let err2 := |d1.b - d2.b|
  let err := if err1 < err2 then err2 else err1
  let rad : ℚ := 1000000
  let small : Bool := decide (d1.a < rad) || decide (d1.b < rad) || decide (d2.a < rad) || decide (d2.b < rad)
  if 10 ≤ err then
    if decide (err < 200000) || warnOnly || small then .warn else .fail
  else .quiet

end VW.DatumCheck
