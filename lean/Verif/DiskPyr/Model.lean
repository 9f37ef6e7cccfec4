import Mathlib.Data.Rat.Floor
import Mathlib.Algebra.Order.Archimedean.Basic
import Verif.Composite.Model
import Verif.Stats.Model
/-
Model of `vw::mosaic::DiskImagePyramid` and the functions around it, src/vw/Mosaic/DiskImagePyramid.h.

Sizes, scales and places are integers without overflow, doubles are rational numbers without rounding (a NaN is `none`).
The files of the levels are their sizes; their pixels, the georeference and progress reports are left out.
-/
namespace VW.DiskPyr
open VW.Composite (Box)

/-! ### Levels -/

/-- Columns or rows of the next level: `int32(.5 + cols * factor)` with factor 1 / subsample, `resample_aa`,
src/vw/Image/AntiAliasing.h:294-301 and DiskImagePyramid.h:378, 394-396. -/
def nextSize (c s : Nat) : Nat := (2 * c + s) / (2 * s)

/-- A level: the size of `m_pyramid[i]` and `m_scales[i]`, DiskImagePyramid.h:302-314. -/
structure Level where
  cols : Nat
  rows : Nat
  scale : Nat
deriving DecidableEq, Repr

/-- The loop that makes the levels, DiskImagePyramid.h:361-446, from a level of `c` by `r` pixels on; `none` when
`fuel` turns do not suffice. A file that is used again has the right size (`overwriteIfNoGood`). -/
def loop : Nat → Nat → Nat → Nat → Nat → Nat → Option (List Level)
  | 0, _, _, _, _, _ => none
  | fuel + 1, s, limit, c, r, scale =>
    if c * r > limit then
      (loop fuel s limit (nextSize c s) (nextSize r s) (scale * s)).map (fun l => { cols := c, rows := r, scale := scale } :: l)
    else some [{ cols := c, rows := r, scale := scale }]

/-- What the constructor gives, DiskImagePyramid.h:327-452. -/
inductive Made where
  | argumentErr
  | forever
  | levels (l : List Level)

/-- The constructor for an image of `c` by `r` pixels, DiskImagePyramid.h:337-352. -/
def make (fuel s limit c r : Nat) : Made :=
  if s < 2 then .argumentErr
  else if limit < 4 then .argumentErr
  else
    match loop fuel s limit c r 1 with
    | none => .forever
    | some l => .levels l

/-- `pyramidLevel`, DiskImagePyramid.h:455-466, from a level on. -/
def levelFrom (scales : List Nat) (sub : Rat) : Nat → Nat → Nat
  | 0, level => level
  | fuel + 1, level =>
    if level + 1 ≥ scales.length then level
    else if ((scales.getD (level + 1) 0 : Nat) : Rat) > sub then level
    else levelFrom scales sub fuel (level + 1)

/-- `pyramidLevel`, DiskImagePyramid.h:455-466. -/
def pyramidLevel (scales : List Nat) (sub : Rat) : Nat := levelFrom scales sub scales.length 0

/-- `operator/=` of a `BBox2i` by a whole number, BBox.tcc:270-277: truncation towards 0; an empty box is left as it is. -/
def divBox (b : Box) (s : Nat) : Box :=
  if b.empty then b else { x0 := b.x0.tdiv s, y0 := b.y0.tdiv s, x1 := b.x1.tdiv s, y1 := b.y1.tdiv s }

/-- `bounding_box` of a level. -/
def Level.box (l : Level) : Box := { x0 := 0, y0 := 0, x1 := l.cols, y1 := l.rows }

/-- `get_image_clip`, DiskImagePyramid.h:468-486: the level that is cropped, `scale_out` and `region_out`; `none` is
the exception for a pyramid without levels. -/
def getClip (ls : List Level) (scaleIn : Rat) (region : Box) : Option (Nat × Nat × Box) :=
  if ls.length = 0 then none
  else
    let level := pyramidLevel (ls.map (fun l => l.scale)) scaleIn
    do
      let l0 ← ls[0]?
      let l ← ls[level]?
      return (level, l.scale, (divBox (region.crop l0.box) l.scale).crop l.box)

/-! ### Files used again -/

/-- A file: does it open as an image, when was it written, its size. -/
structure File where
  opens : Bool
  time : Int
  cols : Int
  rows : Int

/-- `overwrite_if_no_good`, DiskImagePyramid.h:146-180; `out` is `none` if the file does not exist. Every exception
inside the `try` is the file not opening. -/
def overwriteIfNoGood (inputTime : Int) (out : Option File) (cols rows : Int) : Bool :=
  match out with
  | none => true
  | some f =>
    if ¬ f.opens then true
    else if f.time < inputTime then true
    else if cols ≥ 0 ∧ rows ≥ 0 then
      (if f.cols = cols ∧ f.rows = rows then false else true)
    else false

/-! ### Approximate bounds -/

/-- The step of the samples, DiskImagePyramid.h:204-206. -/
def delta (n : Nat) : Nat := (max ⌈(n : Rat) / 250⌉ 1).toNat

/-- `for (i = 0; i < n; i += d)` for positive `d`. -/
def steps (n d : Nat) : List Nat := (List.range ((n + d - 1) / d)).map (fun k => k * d)

/-- Is a value used, DiskImagePyramid.h:211-214. -/
def accept (nodata : Option Rat) (valid : Option (Rat × Rat)) (v : Rat) : Bool :=
  (match nodata with | some x => !decide (v = x) | none => true) &&
  (match valid with | some (lo, hi) => !(decide (v < lo) || decide (v > hi)) | none => true)

/-- The values that are used, DiskImagePyramid.h:207-217; a pixel that is NaN is `none`. -/
def samples (img : Nat → Nat → Option Rat) (cols rows : Nat) (nodata : Option Rat) (valid : Option (Rat × Rat)) : List Rat :=
  (steps cols (delta cols)).flatMap (fun c => (steps rows (delta rows)).filterMap (fun r =>
    match img c r with
    | none => none
    | some v => if accept nodata valid v then some v else none))

/-- The bounds of the values, DiskImagePyramid.h:219-237; `none` is (-big, big). -/
def boundsOf (vals : List Rat) : Option (Rat × Rat) :=
  if vals = [] then none
  else
    let k := Stats.findOutlierBrackets vals (1 / 100) 4
    let q := Stats.sort vals
    let b := max k.b (q.getD 0 0)
    let e := min k.e (q.getD (q.length - 1) 0)
    if b = e then some (b - 1, e + 1) else some (b, e)

/-- `approx_bounds_nocache`, DiskImagePyramid.h:188-237. -/
def approxBounds (img : Nat → Nat → Option Rat) (cols rows : Nat) (nodata : Option Rat) (valid : Option (Rat × Rat)) :
    Option (Rat × Rat) := boundsOf (samples img cols rows nodata valid)

end VW.DiskPyr
