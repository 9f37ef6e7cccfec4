import Mathlib.Data.List.Basic
import Mathlib.Data.List.Range
import Mathlib.Data.Rat.Defs
import Mathlib.Algebra.Order.Ring.Rat
import Mathlib.Algebra.BigOperators.Group.List.Basic
import Verif.Image.Grassfire
/-
Model of `vw::mosaic::ImageComposite` and `vw::mosaic::PositionedImage`, src/vw/Mosaic/ImageComposite.h.

Places are pairs of integers without overflow, channels are rational numbers (the float pixel types, without rounding;
`ChannelRange<float>::max()` is 1). Sources are functions of a place of the source, all planes alike; the cache, whose
handles give back what was put in (C01-C03), and progress reports are left out. Loops over pixels whose iterations do
not interact are pointwise definitions.
-/
namespace VW.Composite

abbrev Pos := Int × Int

/-- `BBox2i`, src/vw/Math/BBox.h, with the operations of BBox.tcc used here. -/
structure Box where
  x0 : Int
  y0 : Int
  x1 : Int
  y1 : Int
deriving DecidableEq, Repr

/-- `empty()`, BBox.tcc:156-160. -/
def Box.empty (b : Box) : Bool := decide (b.x0 ≥ b.x1) || decide (b.y0 ≥ b.y1)

/-- `intersects(bbox)`, BBox.tcc:142-152. -/
def Box.intersects (b c : Box) : Bool :=
  !(decide (b.x0 ≥ c.x1) || decide (b.x1 ≤ c.x0) || decide (b.y0 ≥ c.y1) || decide (b.y1 ≤ c.y0))

/-- `crop(bbox)`, BBox.tcc:110-120. -/
def Box.crop (b c : Box) : Box :=
  { x0 := if b.x0 < c.x0 then c.x0 else b.x0, y0 := if b.y0 < c.y0 then c.y0 else b.y0,
    x1 := if b.x1 > c.x1 then c.x1 else b.x1, y1 := if b.y1 > c.y1 then c.y1 else b.y1 }

/-- `grow(bbox)`, BBox.tcc:82-106. -/
def Box.grow (b c : Box) : Box :=
  if c.empty then b
  else { x0 := min b.x0 c.x0, y0 := min b.y0 c.y0, x1 := max b.x1 c.x1, y1 := max b.y1 c.y1 }

/-- `operator-=`, BBox.tcc:290-295: an empty box stays where it is. -/
def Box.back (b : Box) (v : Pos) : Box :=
  if b.empty then b else { x0 := b.x0 - v.1, y0 := b.y0 - v.2, x1 := b.x1 - v.1, y1 := b.y1 - v.2 }

/-- `width()`, BBox.tcc:170-175. -/
def Box.width (b : Box) : Int := if b.empty then 0 else b.x1 - b.x0

/-- `height()`, BBox.tcc:176-181. -/
def Box.height (b : Box) : Int := if b.empty then 0 else b.y1 - b.y0

/-! ### Sources and the extent of the mosaic -/

/-- An inserted image: its box and its pixels, at places counted from its upper left corner. -/
structure Item (P : Type) where
  box : Box
  at' : Pos → P

/-- The members `sources`/`sourcerefs` with `bboxes`, `view_bbox`, `data_bbox`, ImageComposite.h:216-226. -/
structure Comp (P : Type) where
  items : List (Item P)
  view : Box
  data : Box

/-- `insert`, ImageComposite.h:410-431 (`mindim` is left out). -/
def Comp.insert {P : Type} (c : Comp P) (W H : Nat) (img : Pos → P) (x y : Int) : Comp P :=
  let b : Box := { x0 := x, y0 := y, x1 := x + W, y1 := y + H }
  let items := c.items ++ [{ box := b, at' := img }]
  if items.length = 1 then { items := items, view := b, data := b }
  else { items := items, view := c.view.grow b, data := c.data.grow b }

/-- `prepare(progress)`, ImageComposite.h:434-448: the boxes move, the view does not. -/
def Comp.prepare {P : Type} (c : Comp P) : Comp P :=
  { items := c.items.map (fun i => { box := i.box.back (c.view.x0, c.view.y0), at' := i.at' }),
    view := c.view,
    data := c.data.back (c.view.x0, c.view.y0) }

/-- `prepare(total_bbox, progress)`, ImageComposite.h:450-455. -/
def Comp.prepareIn {P : Type} (c : Comp P) (total : Box) : Comp P := { c with view := total }.prepare

/-- `cols()`, ImageComposite.h:265. -/
def Comp.cols {P : Type} (c : Comp P) : Int := c.view.width

/-- `rows()`, ImageComposite.h:266. -/
def Comp.rows {P : Type} (c : Comp P) : Int := c.view.height

/-- `sparse_check`, ImageComposite.h:295-306, with the check of every source (`sparse` says yes or no for a box of the
source with the given number). -/
def Comp.sparseCheck {P : Type} (c : Comp P) (sparse : Nat → Box → Bool) (q : Box) : Bool :=
  (c.items.zipIdx).any (fun e =>
    let s := e.1.box.crop q
    !s.empty && sparse e.2 (s.back (e.1.box.x0, e.1.box.y0)))

/-! ### Masks -/

/-- One turn of the loop over `p2` in `generate_masks`, ImageComposite.h:339-360. -/
def maskStep (bs : Nat → Box) (fire : Nat → Pos → Int) (p1 : Nat) (mask : Pos → Int) (p2 : Nat) : Pos → Int :=
  if p1 = p2 then mask
  else
    let ox := (bs p2).x0 - (bs p1).x0
    let oy := (bs p2).y0 - (bs p1).y0
    if ¬ (ox ≥ (bs p1).width ∨ oy ≥ (bs p1).height ∨ -ox ≥ (bs p2).width ∨ -oy ≥ (bs p2).height) then
      let left := max ox 0
      let top := max oy 0
      let right := min ((bs p2).width + ox) (bs p1).width
      let bottom := min ((bs p2).height + oy) (bs p1).height
      fun q =>
        if top ≤ q.2 ∧ q.2 < bottom ∧ left ≤ q.1 ∧ q.1 < right then
          (if fire p2 (q.1 - ox, q.2 - oy) > mask q ∨ (fire p2 (q.1 - ox, q.2 - oy) = mask q ∧ p2 > p1) then 0
           else mask q)
        else mask q
    else mask

/-- The mask of source `p1` among `n`, ImageComposite.h:337-361, with `threshold`, Algorithms.h:190-208, 262-274:
1 where the value is positive, else 0. (Writing to and reading from a file are left out.) -/
def mask (bs : Nat → Box) (fire : Nat → Pos → Int) (n : Nat) (p1 : Nat) (q : Pos) : Int :=
  if (List.range n).foldl (maskStep bs fire p1) (fire p1) q > 0 then 1 else 0

/-- The grassfire distances of a source with these alphas, `GrassfireGenerator`, ImageComposite.h:176-188 (default
`ignore_borders = false`). -/
def fireOf (b : Box) (alpha : Pos → Rat) : Pos → Int :=
  Grassfire.grassfire (fun p => decide (alpha p = 0)) b.width.toNat b.height.toNat false

/-! ### Draft mode -/

/-- Pixels with channels named by `κ`. -/
abbrev Px (κ : Type) := κ → Rat

/-- `addto(dest, ox, oy, overlay)`, ImageComposite.h:103-121; `dest` has `w` columns and `h` rows, the image is at
`box`. `alpha` is the alpha channel, if there is one. -/
def addto {κ : Type} (alpha : Option κ) (box : Box) (img : Pos → Px κ) (w h ox oy : Int) (overlay : Bool)
    (dest : Pos → Px κ) : Pos → Px κ :=
  let s := box.crop { x0 := ox, y0 := oy, x1 := ox + w, y1 := oy + h }
  if s.empty then dest
  else
    fun q =>
      let g : Pos := (q.1 + ox, q.2 + oy)
      if s.x0 ≤ g.1 ∧ g.1 < s.x1 ∧ s.y0 ≤ g.2 ∧ g.2 < s.y1 then
        let v := img (g.1 - box.x0, g.2 - box.y0)
        if overlay then
          match alpha with
          | some a => fun k => dest q k * (1 - v a / 1) + v k
          | none => v
        else fun k => dest q k + v k
      else dest q

/-- One turn of the loop of `draft_patch`, ImageComposite.h:602-609. -/
def draftStep {κ : Type} (alpha : Option κ) (patch : Box) (dest : Pos → Px κ) (i : Item (Px κ)) : Pos → Px κ :=
  if patch.intersects i.box then
    let b := patch.crop i.box
    addto alpha b (fun q => i.at' (q.1 + (b.x0 - i.box.x0), q.2 + (b.y0 - i.box.y0)))
      patch.width patch.height patch.x0 patch.y0 true dest
  else dest

/-- `draft_patch`, ImageComposite.h:593-613. -/
def Comp.draftPatch {κ : Type} (c : Comp (Px κ)) (alpha : Option κ) (patch : Box) : Pos → Px κ :=
  c.items.foldl (draftStep alpha patch) (fun _ _ => 0)

/-- `operator()` in draft mode, ImageComposite.h:273-278. -/
def Comp.draftAt {κ : Type} (c : Comp (Px κ)) (alpha : Option κ) (x y : Int) : Px κ :=
  c.draftPatch alpha { x0 := x, y0 := y, x1 := x + 1, y1 := y + 1 } (0, 0)

/-! ### Boxes of the pyramids -/

/-- `int / 2` of C++, for both signs. -/
def half (x : Int) : Int := x.tdiv 2

/-- The box of the patch at the next level, ImageComposite.h:480-484. -/
def nextBox (b : Box) : Box :=
  { x0 := half b.x0, y0 := half b.y0,
    x1 := half b.x0 + half (b.width + b.x0.tmod 2) + 1,
    y1 := half b.y0 + half (b.height + b.y0.tmod 2) + 1 }

/-- `bbox_pyr[l]`, ImageComposite.h:477-487. -/
def levelBox (patch : Box) : Nat → Box
  | 0 => patch
  | l + 1 => nextBox (levelBox patch l)

/-- First loop for the padded box, ImageComposite.h:492-497. -/
def padDown (b : Box) : Nat → Box
  | 0 => b
  | l + 1 => padDown { x0 := half b.x0, y0 := half b.y0, x1 := half b.x1 + 1, y1 := half b.y1 + 1 } l

/-- Second loop, ImageComposite.h:498-503. -/
def padUp (b : Box) : Nat → Box
  | 0 => b
  | l + 1 => padUp { x0 := 2 * b.x0 - 1, y0 := 2 * b.y0 - 1, x1 := 2 * b.x1, y1 := 2 * b.y1 } l

/-- `padded_bbox`, ImageComposite.h:491-503. -/
def padded (patch : Box) (levels : Nat) : Box := padUp (padDown patch (levels - 1)) (levels - 1)

/-- Is the source with box `b` taken into account, ImageComposite.h:508-512. -/
def listed (patch : Box) (levels : Nat) (b : Box) : Bool := (padded patch levels).intersects b

/-- A `PositionedImage` with one channel: the size of the whole, its box and the values, 0 beyond the box. -/
structure Positioned where
  cols : Int
  rows : Int
  box : Box
  at' : Pos → Rat

/-- The image with `ZeroEdgeExtension`. -/
def Positioned.get (p : Positioned) (x y : Int) : Rat :=
  if 0 ≤ x ∧ x < p.box.width ∧ 0 ≤ y ∧ y < p.box.height then p.at' (x, y) else 0

/-- The filter with kernel (1/4, 1/2, 1/4) in both directions at a place of the source image; ImageComposite.h:78, 87. -/
def Positioned.smooth (p : Positioned) (x y : Int) : Rat :=
  let row := fun y => p.get (x - 1) y / 4 + p.get x y / 2 + p.get (x + 1) y / 4
  row (y - 1) / 4 + row y / 2 + row (y + 1) / 4

/-- Left border of `reduce`, ImageComposite.h:72-73. -/
def borderLow (lo : Int) : Int := min (1 + (lo + 1).tmod 2) lo

/-- Right border of `reduce`, ImageComposite.h:74-75. -/
def borderHigh (lo size total : Int) : Int := min (1 + (size + borderLow lo + 1).tmod 2) (total - lo - size)

/-- `reduce`, ImageComposite.h:69-91. The filtered and subsampled image has
`1 + (width + left + right - 1) / 2` columns (Manipulation.h:238-240); beyond, the last column is repeated. -/
def Positioned.reduce (p : Positioned) : Positioned :=
  let left := borderLow p.box.x0
  let top := borderLow p.box.y0
  let right := borderHigh p.box.x0 p.box.width p.cols
  let bottom := borderHigh p.box.y0 p.box.height p.rows
  let nx := 1 + half (p.box.width + left + right - 1)
  let ny := 1 + half (p.box.height + top + bottom - 1)
  { cols := half (p.cols + 1), rows := half (p.rows + 1),
    box := { x0 := half (p.box.x0 - left), y0 := half (p.box.y0 - top),
             x1 := half (p.box.x0 - left) + half (p.box.width + left + right + 1) + 1,
             y1 := half (p.box.y0 - top) + half (p.box.height + top + bottom + 1) + 1 },
    at' := fun q => p.smooth (2 * min q.1 (nx - 1) - left) (2 * min q.2 (ny - 1) - top) }

/-- The masks of a source's pyramid, ImageComposite.h:387-403. -/
def maskLevel (p : Positioned) : Nat → Positioned
  | 0 => p
  | l + 1 => (maskLevel p l).reduce

/-- `addto` without overlay of a one-channel image, at a place of the whole. -/
def Positioned.part (p : Positioned) (b : Box) (q : Pos) : Rat :=
  let s := p.box.crop b
  if s.x0 ≤ q.1 ∧ q.1 < s.x1 ∧ s.y0 ≤ q.2 ∧ q.2 < s.y1 then p.at' (q.1 - p.box.x0, q.2 - p.box.y0) else 0

/-- The sum of the masks of the listed sources at level `l`, at a place of that level; ImageComposite.h:514-525. -/
def maskSum (srcs : List Positioned) (levels : Nat) (patch : Box) (l : Nat) (q : Pos) : Rat :=
  ((srcs.filter (fun s => listed patch levels s.box)).map (fun s => (maskLevel s l).part (levelBox patch l) q)).sum

/-- The largest alpha of the sources at a place of the patch, ImageComposite.h:553-575, without the alpha of any source
it is 0. -/
def alphaAt (srcs : List Positioned) (patch : Box) (q : Pos) : Rat :=
  srcs.foldl (fun a s =>
    if patch.intersects s.box then
      let o := patch.crop s.box
      if o.x0 ≤ q.1 ∧ q.1 < o.x1 ∧ o.y0 ≤ q.2 ∧ q.2 < o.y1 then
        (if s.at' (q.1 - s.box.x0, q.2 - s.box.y0) > a then s.at' (q.1 - s.box.x0, q.2 - s.box.y0) else a)
      else a
    else a) 0

end VW.Composite
