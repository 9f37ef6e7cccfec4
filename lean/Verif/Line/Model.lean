import Mathlib.Logic.Function.Iterate
/-
Model of `src/vw/Math/BresenhamLine.h`.  Integers are unbounded (int32 in the code).
-/
namespace VW.Line

/-- The members, BresenhamLine.h:45-48. -/
structure Bres where
  x0 : Int
  y0 : Int
  x1 : Int
  y1 : Int
  x : Int
  y : Int
  steep : Bool
  deltax : Int
  deltay : Int
  error : Int
  ystep : Int
deriving DecidableEq, Repr

/-- `std::abs`. -/
def iabs (a : Int) : Int := if a < 0 then -a else a

/-- `setup`, BresenhamLine.h:53-70, called by both constructors (lines 76-86). -/
def Bres.mk' (x0 y0 x1 y1 : Int) : Bres :=
  let steep := decide (iabs (y1 - y0) > iabs (x1 - x0))
  let (x0, y0, x1, y1) := if steep then (y0, x0, y1, x1) else (x0, y0, x1, y1)
  let (x0, y0, x1, y1) := if x0 > x1 then (x1, y1, x0, y0) else (x0, y0, x1, y1)
  { x0, y0, x1, y1, x := x0, y := y0, steep, deltax := x1 - x0, deltay := iabs (y1 - y0),
    error := (x1 - x0).tdiv 2, ystep := if y0 < y1 then 1 else -1 }

/-- `operator*`, BresenhamLine.h:89-94. -/
def Bres.pixel (b : Bres) : Int × Int := if b.steep then (b.y, b.x) else (b.x, b.y)

/-- `operator++`, BresenhamLine.h:97-104. -/
def Bres.next (b : Bres) : Bres :=
  let e := b.error - b.deltay
  if e < 0 then { b with x := b.x + 1, y := b.y + b.ystep, error := e + b.deltax }
  else { b with x := b.x + 1, error := e }

/-- `is_good`, BresenhamLine.h:107. -/
def Bres.good (b : Bres) : Bool := decide (b.x < b.x1)

/-- The pixel reached after `k` increments. -/
def Bres.at (b : Bres) (k : Nat) : Int × Int := (Bres.next^[k] b).pixel

/-- Is the iterator still good after `k` increments? -/
def Bres.goodAt (b : Bres) (k : Nat) : Bool := (Bres.next^[k] b).good

end VW.Line
