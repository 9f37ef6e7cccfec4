import Verif.Edge.Model
import Verif.Math.Functions
import Verif.Math.Transform
/-
Model of image warping: interpolation (`src/vw/Image/Interpolation.h`), transformed images and approximated
transforms (`src/vw/Image/Transform.h`).

Pixels have one channel, of exact numbers; `cast` is the conversion of the result to the channel type (the
identity for floating point channels, rounding or rounding and clamping for integers).  Only one plane.  `none` is
undefined behaviour: a read of a pixel that a view does not have, or a coordinate outside of int32.
-/
namespace VW.Warp
open VW.Block (Rect)
open VW.Edge (Child Mode EView)

variable {K : Type} [Field K] [LinearOrder K] [IsStrictOrderedRing K] [FloorRing K]

/-- A view as the function that reads its pixels. -/
abbrev Src (K : Type) := Int → Int → Option K

/-- The interpolation methods, Interpolation.h:113-126, 189-202, 210-225. -/
inductive Interp where
  | nearest
  | bilinear
  | bicubic
deriving DecidableEq

/-- `pixel_buffer`, Interpolation.h:114, 190, 211. -/
def Interp.buffer : Interp → Int
  | .nearest => 1
  | .bilinear => 1
  | .bicubic => 2

/-- `NearestPixelInterpolation::operator()`, Interpolation.h:221-224. -/
def nearestAt (s : Src K) (i j : K) : Option K := do
  let x ← VW.Functions.round i
  let y ← VW.Functions.round j
  s x y

/-- `BilinearInterpolationImpl::operator()`, Interpolation.h:77-109. -/
def bilinearAt (cast : K → K) (s : Src K) (i j : K) : Option K := do
  let x ← VW.Functions.floor i
  let y ← VW.Functions.floor j
  if (x : K) = i ∧ (y : K) = j then
    return cast (← s x y)
  let normx := i - (x : K)
  let normy := j - (y : K)
  let norm1mx := 1 - normx
  let norm1my := 1 - normy
  let result := (← s x y) * norm1mx
  let result := result + (← s (x + 1) y) * normx
  let result := result * norm1my
  let row := (← s (x + 1 + -1) (y + 1)) * norm1mx
  let row := row + (← s (x + 1 + -1 + 1) (y + 1)) * normx
  return cast (result + row * normy)

/-- The weights of bicubic interpolation, Interpolation.h:155-158. -/
def cubicWeight (k : Nat) (n : K) : K :=
  match k with
  | 0 => ((2 - n) * n - 1) * n
  | 1 => (3 * n - 5) * n * n + 2
  | 2 => ((4 - 3 * n) * n + 1) * n
  | _ => (n - 1) * n * n

/-- One row of four pixels, Interpolation.h:161-164, 166-169, 171-174, 176-179. -/
def cubicRow (s : Src K) (x y : Int) (n : K) : Option K := do
  let row := cubicWeight 0 n * (← s x y)
  let row := row + cubicWeight 1 n * (← s (x + 1) y)
  let row := row + cubicWeight 2 n * (← s (x + 2) y)
  return row + cubicWeight 3 n * (← s (x + 3) y)

/-- `BicubicInterpolationImpl::operator()`, Interpolation.h:139-185. -/
def bicubicAt (cast : K → K) (s : Src K) (i j : K) : Option K := do
  let x ← VW.Functions.floor i
  let y ← VW.Functions.floor j
  if (x : K) = i ∧ (y : K) = j then
    return cast (← s x y)
  let normx := i - (x : K)
  let normy := j - (y : K)
  let result := cubicWeight 0 normy * (← cubicRow s (x - 1) (y - 1) normx)
  let result := result + cubicWeight 1 normy * (← cubicRow s (x - 1) (y - 1 + 1) normx)
  let result := result + cubicWeight 2 normy * (← cubicRow s (x - 1) (y - 1 + 1 + 1) normx)
  let result := result + cubicWeight 3 normy * (← cubicRow s (x - 1) (y - 1 + 1 + 1 + 1) normx)
  return cast (result * (1 / 4))

/-- `InterpolationView::operator()`, Interpolation.h:258. -/
def Interp.eval (m : Interp) (cast : K → K) (s : Src K) (i j : K) : Option K :=
  match m with
  | .nearest => nearestAt s i j
  | .bilinear => bilinearAt cast s i j
  | .bicubic => bicubicAt cast s i j

/-- `image.rasterize(buf, bbox)` of a fresh buffer of the size of the box (Interpolation.h:279-280): what the buffer
has afterwards. -/
def fillBuffer (s : Src K) (b : Rect) : Src K := fun x y =>
  if 0 ≤ x ∧ x < b.x1 - b.x0 ∧ 0 ≤ y ∧ y < b.y1 - b.y0 then s (b.x0 + x) (b.y0 + y) else none

/-- The box widened for an interpolation method, Interpolation.h:286-290. -/
def pad (m : Interp) (b : Rect) : Rect :=
  let w := b.x1 - b.x0 + 2 * m.buffer
  let h := b.y1 - b.y0 + 2 * m.buffer
  let x := b.x0 - m.buffer
  let y := b.y0 - m.buffer
  ⟨x, y, x + w, y + h⟩

/-- `InterpolationView::prerasterize` of an edge extended image, Interpolation.h:272-292: the pixels its result
reads.  `accessible` is `IsMultiplyAccessible` of the image.  Otherwise the box is rasterized (through the image's own
`prerasterize`, EdgeExtension.h:163) to a buffer that is shifted by a CropView. -/
def interpPre (m : Interp) (accessible : Bool) (e : EView K) (b : Rect) : Src K :=
  let b := pad m b
  if accessible then (e.prerasterize b).read
  else fun i j => fillBuffer (e.prerasterize b).read b (i + -b.x0) (j + -b.y0)

/-- `TransformView::operator()`, Image/Transform.h:362-365, of an interpolated image. -/
def warpEval (m : Interp) (cast : K → K) (s : Src K) (t : Tx K) (p : Pt K) : Option K :=
  let q := t.reverse p
  m.eval cast s q.x q.y

/-- What `TransformView::rasterize` writes for a pixel of the box, Image/Transform.h:372-385, without
approximation. -/
def warpRaster (m : Interp) (cast : K → K) (accessible : Bool) (e : EView K) (t : Tx K) (b : Rect) (x y : Int) :
    Option K :=
  warpEval m cast (interpPre m accessible e (t.reverseBBox b)) t (pixel (x, y))

/-- `TransformViewNoData::operator()`, Image/Transform.h:430-438, of an interpolated image of the given size. -/
def noDataEval (m : Interp) (cast : K → K) (s : Src K) (cols rows : Int) (t : Tx K) (nodata : K) (p : Pt K) : Option K :=
  let rv := t.reverse p
  let b := m.buffer
  if rv.x < ((b - 1 : Int) : K) ∨ rv.x ≥ ((cols - b : Int) : K) ∨ rv.y < ((b - 1 : Int) : K) ∨ rv.y ≥ ((rows - b : Int) : K)
  then some nodata
  else m.eval cast s rv.x rv.y

/-- What `TransformViewNoData::rasterize` writes for a pixel of the box, Image/Transform.h:445-461, without
approximation. -/
def noDataRaster (m : Interp) (cast : K → K) (accessible : Bool) (e : EView K) (t : Tx K) (nodata : K) (b : Rect)
    (x y : Int) : Option K :=
  noDataEval m cast (interpPre m accessible e (t.reverseBBox b)) e.child.cols e.child.rows t nodata (pixel (x, y))

/-- The size of a resampled image, `int(.5+(cols*factor))`, Image/Transform.h:633 and others. -/
def resampledSize (n : Int) (f : K) : Option Int := VW.Functions.toI32 (1 / 2 + (n : K) * f)

/-- The functor of `resize`, Image/Transform.h:724, 735, 745. -/
def resizeTx (cols rows w h : Int) : Tx K := resample ((w : K) / (cols : K)) ((h : K) / (rows : K))

/-! ### ApproximateTransform -/

/-- `m_table`: its size and the entry of each cell. -/
structure Table (K : Type) where
  n : Nat
  at_ : Nat → Nat → Pt K

/-- The initial table, Image/Transform.h:149-154. -/
def firstTable (f : Pt K → Pt K) (b : Rect) : Table K :=
  ⟨2, fun x y => f ⟨if x = 0 then (b.x0 : K) else (b.x1 : K), if y = 0 then (b.y0 : K) else (b.y1 : K)⟩⟩

/-- An entry of the refined table, Image/Transform.h:173-178. -/
def refined (f : Pt K → Pt K) (b : Rect) (prev : Table K) (n x y : Nat) : Pt K :=
  if y % 2 = 0 ∧ x % 2 = 0 then prev.at_ (x / 2) (y / 2)
  else f ⟨(b.x0 : K) + (x : K) / ((n : K) - 1) * ((b.x1 - b.x0 : Int) : K),
          (b.y0 : K) + (y : K) / ((n : K) - 1) * ((b.y1 - b.y0 : Int) : K)⟩

/-- The squared error of the last table at an entry of the refined one, Image/Transform.h:179-183; entries carried over
are not looked at. -/
def sqrErr (f : Pt K → Pt K) (b : Rect) (prev : Table K) (n x y : Nat) : K :=
  let p := prev.at_
  let i : Pt K :=
    if y % 2 = 0 then
      ⟨((p (x / 2) (y / 2)).x + (p (x / 2 + 1) (y / 2)).x) / 2, ((p (x / 2) (y / 2)).y + (p (x / 2 + 1) (y / 2)).y) / 2⟩
    else if x % 2 = 0 then
      ⟨((p (x / 2) (y / 2)).x + (p (x / 2) (y / 2 + 1)).x) / 2, ((p (x / 2) (y / 2)).y + (p (x / 2) (y / 2 + 1)).y) / 2⟩
    else
      ⟨((p (x / 2) (y / 2)).x + (p (x / 2) (y / 2 + 1)).x + (p (x / 2 + 1) (y / 2)).x + (p (x / 2 + 1) (y / 2 + 1)).x) / 4,
       ((p (x / 2) (y / 2)).y + (p (x / 2) (y / 2 + 1)).y + (p (x / 2 + 1) (y / 2)).y + (p (x / 2 + 1) (y / 2 + 1)).y) / 4⟩
  let d := refined f b prev n x y
  (d.x - i.x) * (d.x - i.x) + (d.y - i.y) * (d.y - i.y)

/-- `max_sqr_err`, Image/Transform.h:170-187. -/
def maxSqrErr (f : Pt K → Pt K) (b : Rect) (prev : Table K) (n : Nat) : K :=
  ((List.range n).flatMap fun y => (List.range n).map fun x => (x, y)).foldl
    (fun m q => if q.2 % 2 = 0 ∧ q.1 % 2 = 0 then m
      else let e := sqrErr f b prev n q.1 q.2; if e > m then e else m) 0

/-- The loop of the constructor, Image/Transform.h:161-188, that starts with a table; `none` is `m_table.reset()`.
The table of size one, which does not occur, is not refined (2*1-1 = 1). -/
def buildFrom (f : Pt K → Pt K) (b : Rect) (tolSqr : K) (prev : Table K) : Option (Table K) :=
  let n := 2 * prev.n - 1
  if _h : (n : Int) ≥ b.x1 - b.x0 ∨ (n : Int) ≥ b.y1 - b.y0 ∨ prev.n < 2 then none
  else
    let t : Table K := ⟨n, refined f b prev n⟩
    if maxSqrErr f b prev n > tolSqr then buildFrom f b tolSqr t else some t
termination_by (b.x1 - b.x0).toNat - prev.n
decreasing_by
  simp only [not_or, not_le, not_lt, ge_iff_le] at _h
  omega

/-- The constructor of `ApproximateTransform`, Image/Transform.h:146-189. -/
def approxTable (f : Pt K → Pt K) (b : Rect) (tol : K) : Option (Table K) :=
  buildFrom f b (tol * tol) (firstTable f b)

/-- The cell of a coordinate, Image/Transform.h:202-207, with unbounded integers. -/
def cell (n : Nat) (p : K) : Nat :=
  let i := ⌊p⌋
  let i := if i < 0 then 0 else i
  (if i ≥ (n : Int) then (n : Int) - 1 else i).toNat

/-- `ApproximateTransform::reverse`, Image/Transform.h:191-219. -/
def approxReverse (f : Pt K → Pt K) (b : Rect) (tab : Option (Table K)) (p : Pt K) : Pt K :=
  match tab with
  | none => f p
  | some t =>
    let n := t.n - 1
    let px := (n : K) * (p.x - (b.x0 : K)) / ((b.x1 : K) - (b.x0 : K))
    let py := (n : K) * (p.y - (b.y0 : K)) / ((b.y1 : K) - (b.y0 : K))
    let ix := cell n px
    let iy := cell n py
    let normx := px - (ix : K)
    let normy := py - (iy : K)
    let m00 := t.at_ ix iy
    let m10 := t.at_ (ix + 1) iy
    let m01 := t.at_ ix (iy + 1)
    let m11 := t.at_ (ix + 1) (iy + 1)
    ⟨(m00.x * (1 - normy) + m01.x * normy) * (1 - normx) + (m10.x * (1 - normy) + m11.x * normy) * normx,
     (m00.y * (1 - normy) + m01.y * normy) * (1 - normx) + (m10.y * (1 - normy) + m11.y * normy) * normx⟩

/-- `ApproximateTransform`, Image/Transform.h:141-224. -/
def approximate (t : Tx K) (b : Rect) (tol : K) : Tx K :=
  { t with reverse := approxReverse t.reverse b (approxTable t.reverse b tol) }

/-- `TransformView::rasterize`, Image/Transform.h:376-385. -/
def warpRasterTol (m : Interp) (cast : K → K) (accessible : Bool) (e : EView K) (t : Tx K) (tol : K) (b : Rect) (x y : Int) :
    Option K :=
  if tol > 0 then warpRaster m cast accessible e (approximate t b tol) b x y
  else warpRaster m cast accessible e t b x y

end VW.Warp
