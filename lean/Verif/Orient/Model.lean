import Mathlib.Analysis.SpecialFunctions.Trigonometric.Basic
import Mathlib.Algebra.Order.Floor.Ring
import Mathlib.Data.Rat.Floor
/-
Model of the fit of peaks, src/vw/InterestPoint/Localize.h, and of the histograms used for orientations of interest points,
src/vw/InterestPoint/WeightedHistogram.h.

Arithmetic is exact. An access outside of an image or a vector, and a failed `assert`, is `none`.
-/
namespace VW.Orient

/-! ### Localize.h -/

/-- A floating point number as the result of a division. -/
inductive Fl where
  | fin (q : ℚ)
  | inf
  | nan

/-- `a / b`; the sign of an infinity is not followed. -/
def Fl.div (a b : ℚ) : Fl := if b = 0 then (if a = 0 then .nan else .inf) else .fin (a / b)

/-- `fabs(x) > 1`. -/
def Fl.big : Fl → Bool
  | .fin q => decide (|q| > 1)
  | .inf => true
  | .nan => false

/-- `(float)i + x`. -/
def Fl.shift (i : Int) : Fl → Fl
  | .fin q => .fin ((i : ℚ) + q)
  | .inf => .inf
  | .nan => .nan

/-- `fit_peak_1D`, Localize.h:36-67: `x_sub` and `coef`. The product with `invX` is written out. -/
def fitPeak1D (y0 y1 y2 : ℚ) : Fl × ℚ :=
  let a := 1 / 2 * y0 + (-1) * y1 + 1 / 2 * y2
  let b := (-(1 / 2)) * y0 + 0 * y1 + 1 / 2 * y2
  (Fl.div (-b) (2 * a), a)

/-- An interest image. -/
structure Img where
  cols : Int
  rows : Int
  px : Int → Int → ℚ

/-- `interest(i, j)`. -/
def Img.get (m : Img) (i j : Int) : Option ℚ :=
  if 0 ≤ i ∧ i < m.cols ∧ 0 ≤ j ∧ j < m.rows then some (m.px i j) else none

/-- The members of `InterestPoint` involved. -/
structure Point where
  x : Fl
  y : Fl
  ix : Int
  iy : Int
  scale : ℚ

/-- Three reads and the fit, Localize.h:78-82, 85-88. -/
def fit3 (a b c : Option ℚ) : Option Fl := do
  let y0 ← a
  let y1 ← b
  let y2 ← c
  return (fitPeak1D y0 y1 y2).1

/-- `fit_peak` in the plane, Localize.h:70-99: the result and the point after the call. -/
def fitPeak (m : Img) (p : Point) : Option (Bool × Point) := do
  let di ← fit3 (m.get (p.ix - 1) p.iy) (m.get p.ix p.iy) (m.get (p.ix + 1) p.iy)
  let dj ← fit3 (m.get p.ix (p.iy - 1)) (m.get p.ix p.iy) (m.get p.ix (p.iy + 1))
  if di.big || dj.big then return (false, p)
  else return (true, { p with x := di.shift p.ix, y := dj.shift p.iy })

/-- `data[k].interest()`. -/
def plane (data : List Img) (k : Int) : Option Img := if k < 0 then none else data[k.toNat]?

/-- `data[k].interest()(i, j)`. -/
def readPlane (data : List Img) (k i j : Int) : Option ℚ := (plane data k).bind fun m => m.get i j

/-- `fit_peak` in scale space, Localize.h:101-140; `toPlane` and `toScale` are the functions of the octave (C156), the
latter is given a finite index only: for a NaN the scale is NaN, here `none` in the second component. -/
def fitPeakScale (toPlane : ℚ → Int) (toScale : ℚ → ℚ) (data : List Img) (p : Point) : Option (Bool × Point × Option ℚ) := do
  let k0 := toPlane p.scale
  let m ← plane data k0
  let r ← fitPeak m p
  if r.1 = false then return (false, r.2, some r.2.scale)
  else
    let dp ← fit3 (readPlane data (k0 - 1) p.ix p.iy) (readPlane data k0 p.ix p.iy) (readPlane data (k0 + 1) p.ix p.iy)
    if dp.big then return (false, r.2, some r.2.scale)
    else
      match dp with
      | .fin q => return (true, r.2, some (toScale ((k0 : ℚ) + q)))
      | _ => return (true, r.2, none)

/-! ### WeightedHistogram.h -/

/-- A conversion to `int`: the fraction is cut. -/
def cut (q : ℚ) : Int := if 0 ≤ q then ⌊q⌋ else ⌈q⌉

/-- `histo[i] += w`. -/
def addAt (h : List ℚ) (i : Nat) (w : ℚ) : List ℚ := h.set i (h.getD i 0 + w)

/-- One pixel, WeightedHistogram.h:52-53. -/
def histStep (mn s : ℚ) (nBins : Nat) (h : List ℚ) (vw : ℚ × ℚ) : List ℚ :=
  let index := cut (1 / 2 + s * (vw.1 - mn))
  if index ≥ 0 ∧ index.toNat < nBins then addAt h index.toNat vw.2 else h

/-- `weighted_histogram`, WeightedHistogram.h:36-55; `vs` are the values of the pixels with their weights. -/
def weightedHistogram (vs : List (ℚ × ℚ)) (mn mx : ℚ) (nBins : Nat) : List ℚ :=
  let s := ((nBins : ℚ) - 1) / (mx - mn)
  vs.foldl (histStep mn s nBins) (List.replicate nBins 0)

/-- `histo[i] += w` on reals, `none` outside. -/
noncomputable def addReal (h : List ℝ) (i : Int) (w : ℝ) : Option (List ℝ) :=
  if 0 ≤ i ∧ i < h.length then some (h.set i.toNat (h.getD i.toNat 0 + w)) else none

/-- `orientation_interpolate`, WeightedHistogram.h:95-104. -/
noncomputable def orientationInterpolate (h : List ℝ) (nBins : Nat) (ori mag : ℝ) : Option (List ℝ) :=
  let binSize := 2 * Real.pi / nBins
  let ratio := (ori - binSize) / binSize
  let n : Int := ⌊(ori + Real.pi) / binSize⌋
  (addReal h n ((1 - ratio) * mag)).bind fun h => addReal h ((n + 1) % (nBins : Int)) (ratio * mag)

/-- `orientation_histogram`, WeightedHistogram.h:107-123, for a kernel of `2 * halfwidth + 1` elements. The weights are
computed by the code but not used. -/
noncomputable def orientationHistogram (ori mag : Int → Int → ℝ) (x y : Int) (halfwidth nBins : Nat) : Option (List ℝ) :=
  (List.range (2 * halfwidth + 1)).foldlM (fun h _ =>
    (List.range (2 * halfwidth + 1)).foldlM (fun h _ => orientationInterpolate h nBins (ori x y) (mag x y)) h)
    (List.replicate nBins 0)

/-- One element in the middle, WeightedHistogram.h:138-141. -/
def nonMaxAt (buf : List ℚ) (h : List ℚ) (i : Nat) : List ℚ :=
  let h := if buf.getD i 0 < buf.getD (i + 1) 0 then h.set i 0 else h
  if buf.getD i 0 < buf.getD (i - 1) 0 then h.set i 0 else h

/-- `non_max_suppression`, WeightedHistogram.h:126-151. -/
def nonMax (hist : List ℚ) (wrap : Bool) : Option (List ℚ) :=
  let numel := hist.length
  if numel < 2 then none
  else
    let h := if hist.getD 0 0 < hist.getD 1 0 then hist.set 0 0 else hist
    let h := (List.range (numel - 2)).foldl (fun h k => nonMaxAt hist h (k + 1)) h
    let h := if hist.getD (numel - 1) 0 < hist.getD (numel - 2) 0 then h.set (numel - 1) 0 else h
    if wrap then
      let h := if hist.getD 0 0 < hist.getD (numel - 1) 0 then h.set 0 0 else h
      some (if hist.getD 0 0 > hist.getD (numel - 1) 0 then h.set (numel - 1) 0 else h)
    else some h

/-- `vec[vi]` with an `int`. -/
def getI (v : List ℚ) (i : Int) : Option ℚ := if 0 ≤ i ∧ i < v.length then some (v.getD i.toNat 0) else none

/-- One term of the correlation at `i`, WeightedHistogram.h:176-192, with `di = k - halfwidth`. -/
def filterTerm (vec kernel : List ℚ) (wrap : Bool) (i : Nat) (acc : ℚ) (k : Nat) : Option ℚ :=
  let halfwidth : Int := ((kernel.length : Int) - 1) / 2
  let di : Int := (k : Int) - halfwidth
  let ki : Int := halfwidth + di
  let numel : Int := vec.length
  if wrap then
    let vi := Int.tmod ((i : Int) + di + numel) numel
    (getI vec vi).bind fun a => (getI kernel ki).map fun b => acc + a * b
  else
    let vi := (i : Int) + di
    if vi ≥ 0 ∧ vi < numel then (getI vec vi).bind fun a => (getI kernel ki).map fun b => acc + a * b
    else some acc

/-- `filter_1d`, WeightedHistogram.h:156-202. -/
def filter1d (vec kernel : List ℚ) (wrap : Bool) : Option (List ℚ) :=
  if kernel.length % 2 = 0 then none
  else
    (List.range vec.length).mapM fun i =>
      (List.range kernel.length).foldlM (filterTerm vec kernel wrap i) 0

/-- The search for the greatest bin, WeightedHistogram.h:229-236, 248-255: `max_val` and `max_bin`. -/
def findMax (h : List ℚ) : ℚ × Nat :=
  (List.range h.length).foldl (fun mb i => if h.getD i 0 > mb.1 then (h.getD i 0, i) else mb) (0, 0)

/-- The `while` loop, WeightedHistogram.h:246-259; `fuel` bounds the steps (5 are enough, `modes_fuel`). -/
def modeLoop (h : List ℚ) (thr : ℚ) : Nat → ℚ → List Nat → Option (List Nat)
  | 0, _, _ => none
  | fuel + 1, maxVal, mode =>
    if maxVal > thr ∧ mode.length < 5 then
      let mb := findMax h
      modeLoop h thr fuel mb.1 (if mb.1 > thr then mode ++ [mb.2] else mode)
    else some mode

/-- `find_weighted_histogram_mode`, WeightedHistogram.h:216-260. -/
def modes (histIn : List ℚ) : Option (List Nat) :=
  (nonMax histIn true).bind fun h =>
    let mb := findMax h
    modeLoop (h.set mb.2 0) (4 / 5 * (mb.2 : ℚ)) 6 mb.1 [mb.2]

end VW.Orient
