import Mathlib.Algebra.Order.Field.Basic
import Mathlib.Algebra.Order.Field.Rat
import Mathlib.Algebra.Order.BigOperators.Group.List
import Mathlib.Tactic.Linarith
import Mathlib.Tactic.NormNum
import Mathlib.Tactic.Ring
import Mathlib.Tactic.FieldSimp
import Mathlib.Tactic.Positivity

/-! Model of `FillHoles` (`src/vw/Image/FillHoles.h`): filling of holes in a masked image, tile by tile.

A pixel is `none` if it is not valid, else its value (one channel, exact numbers). The kernels are parameters: positive weights. -/

namespace VW.FillHoles

/-- A masked image. -/
structure Img where
  w : ℤ
  h : ℤ
  px : ℤ → ℤ → Option ℚ

/-- The view (FillHoles.h:57-60): mode, number of smoothing passes, `m_hole_fill_half`, `m_smooth_half`; the kernels as functions of
the distance in columns and rows (76-100). -/
structure Cfg where
  mode : ℕ
  iters : ℕ
  half : ℕ
  smoothHalf : ℕ
  dist : ℤ → ℤ → ℚ
  gauss : ℤ → ℤ → ℚ

/-- The constructor (FillHoles.h:69-101), with the exponential as a parameter. Only in mode 2 there is a distance kernel. -/
def Cfg.create (mode iters len : ℕ) (gauss : ℤ → ℤ → ℚ) : Cfg :=
  ⟨mode, iters, (len + 1) / 2, 2, fun c r => 1 / max ((c : ℚ) * c + r * r) 1, gauss⟩

/-- A search loop (FillHoles.h:133-145): of the `n` places from `start` on, in steps of `step`, the first that is valid. -/
def scan (line : ℤ → Option ℚ) (start step : ℤ) (n : ℕ) : Option ℤ :=
  ((List.range n).map (fun i : ℕ => start + step * i)).find? (fun k => (line k).isSome)

/-- The places before and after `at'` on a line of length `len` (FillHoles.h:132-139 for a column, 140-146 for a row); the second is
searched only if the first was found. -/
def around (line : ℤ → Option ℚ) (half : ℕ) (len at' : ℤ) : Option (ℤ × ℤ) :=
  match scan line (at' - 1) (-1) (at' - max (at' - half) 0).toNat with
  | none => none
  | some k0 => (scan line (at' + 1) 1 (min (at' + half) (len - 1) - at').toNat).map (fun k1 => (k0, k1))

/-- Linear interpolation (FillHoles.h:157 and 161). -/
def lerp (line : ℤ → Option ℚ) (at' : ℤ) (k : ℤ × ℤ) : ℚ :=
  (((k.2 : ℚ) - at') * (line k.1).getD 0 + ((at' : ℚ) - k.1) * (line k.2).getD 0) / ((k.2 : ℚ) - k.1)

/-- `lo, …, hi`. -/
def span (lo hi : ℤ) : List ℤ := (List.range (hi - lo + 1).toNat).map (fun i : ℕ => lo + i)

/-- The weights and values of the valid pixels of the window (FillHoles.h:166-171, 194-198). -/
def terms (img : ℤ → ℤ → Option ℚ) (kernel : ℤ → ℤ → ℚ) (half : ℕ) (nc nr col row : ℤ) : List (ℚ × ℚ) :=
  (span (max (col - half) 0) (min (col + half) (nc - 1))).flatMap (fun c =>
    (span (max (row - half) 0) (min (row + half) (nr - 1))).filterMap (fun r =>
      (img c r).map (fun v => (kernel (c - col) (r - row), v))))

/-- The sum of the weights, the weighted sum of the values. -/
def wsum (l : List (ℚ × ℚ)) : ℚ × ℚ := ((l.map Prod.fst).sum, (l.map (fun t => t.1 * t.2)).sum)

/-- The filled value of a pixel that is not valid (FillHoles.h:131-176). -/
def fillAt (cfg : Cfg) (img : ℤ → ℤ → Option ℚ) (nc nr col row : ℤ) : Option ℚ :=
  match around (fun k => img col k) cfg.half nr row, around (fun k => img k row) cfg.half nc col with
  | none, none => none
  | v, u =>
    if cfg.mode = 1 then
      let vs := (v.map (fun k => lerp (fun j => img col j) row k)).toList ++ (u.map (fun k => lerp (fun j => img j row) col k)).toList
      if vs.length > 0 then some (vs.sum / vs.length) else none
    else
      let s := wsum (terms img cfg.dist cfg.half nc nr col row)
      if s.1 > 0 then some (s.2 / s.1) else none

/-- `filled_img` (FillHoles.h:123-178). -/
def filled (cfg : Cfg) (img : ℤ → ℤ → Option ℚ) (nc nr : ℤ) (col row : ℤ) : Option ℚ :=
  match img col row with
  | some v => some v
  | none => fillAt cfg img nc nr col row

/-- One smoothing pass (FillHoles.h:184-204). -/
def smooth (cfg : Cfg) (img cur : ℤ → ℤ → Option ℚ) (nc nr : ℤ) (col row : ℤ) : Option ℚ :=
  match img col row, cur col row with
  | none, some v =>
    let s := wsum (terms cur cfg.gauss cfg.smoothHalf nc nr col row)
    if s.1 > 0 then some (s.2 / s.1) else some v
  | _, c => c

/-- All passes (FillHoles.h:182-205). -/
def smoothed (cfg : Cfg) (img : ℤ → ℤ → Option ℚ) (nc nr : ℤ) : ℕ → ℤ → ℤ → Option ℚ
  | 0 => filled cfg img nc nr
  | i + 1 => smooth cfg img (smoothed cfg img nc nr i) nc nr

/-- A box: least coordinates, and those after the last. -/
structure Box where
  x0 : ℤ
  y0 : ℤ
  x1 : ℤ
  y1 : ℤ
deriving DecidableEq

/-- `biased_box` (FillHoles.h:119-121). -/
def biased (img : Img) (half : ℕ) (b : Box) : Box :=
  ⟨max (b.x0 - (half + 1)) 0, max (b.y0 - (half + 1)) 0, min (b.x1 + (half + 1)) img.w, min (b.y1 + (half + 1)) img.h⟩

/-- The pixel at (`x`, `y`) of the image rasterized for the box `b` (FillHoles.h:114-215). -/
def raster (cfg : Cfg) (img : Img) (b : Box) (x y : ℤ) : Option ℚ :=
  let bb := biased img cfg.half b
  smoothed cfg (fun c r => img.px (c + bb.x0) (r + bb.y0)) (bb.x1 - bb.x0) (bb.y1 - bb.y0) cfg.iters (x - bb.x0) (y - bb.y0)

end VW.FillHoles
