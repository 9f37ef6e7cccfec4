import Verif.View.Subdivide
import Verif.Edge.Model
/-
Model of the lazy image views: ImageView (src/vw/Image/ImageView.h), the spatial views of
src/vw/Image/ImageTransform.h, CropView and SubsampleView (src/vw/Image/Manipulation.h), the per-pixel views
(src/vw/Image/PerPixelViews.{h,tcc}), EdgeExtensionView (src/vw/Image/EdgeExtension.h), the pixel accessors
(src/vw/Image/PixelAccessors.h) and `rasterize` (src/vw/Image/ImageViewBase.h).

Simplifications: one plane; all views have the same pixel type; integers are unbounded; functors are pure;
integer indexing only (no floating point offsets).
-/
namespace VW.View
open VW.Block (Rect)
open VW.Edge (Mode)

/-- A view expression. -/
inductive View (α : Type) where
  /-- `ImageView` of `w` by `h` pixels: `data k` is the k-th pixel of the memory block; `none` is a pixel with no
  defined value. -/
  | mem (w h : Int) (data : Int → Option α)
  /-- A disk image: `DiskImageView` (FileIO/DiskImageView.h:40-108) or any other `BlockRasterizeView`. -/
  | lazy (w h : Int) (px : Int → Int → α)
  /-- `PerPixelIndexView`, PerPixelViews.h:42-74. -/
  | index (w h : Int) (f : Int → Int → α)
  /-- `CropView`, Manipulation.h:87-149. -/
  | crop (c : View α) (ci cj di dj : Int)
  /-- `TransposeView`, ImageTransform.h:60-107. -/
  | transpose (c : View α)
  /-- `Rotate180View`, ImageTransform.h:144-190. -/
  | rot180 (c : View α)
  /-- `Rotate90CWView`, ImageTransform.h:226-272. -/
  | rot90cw (c : View α)
  /-- `Rotate90CCWView`, ImageTransform.h:308-354. -/
  | rot90ccw (c : View α)
  /-- `FlipVerticalView`, ImageTransform.h:390-438. -/
  | flipV (c : View α)
  /-- `SubsampleView`, Manipulation.h:214-295. -/
  | subsample (c : View α) (xd yd : Int)
  /-- `UnaryPerPixelView`, PerPixelViews.h:101-133. -/
  | unary (f : α → α) (c : View α)
  /-- `BinaryPerPixelView`, PerPixelViews.tcc:54-96. -/
  | binary (f : α → α → α) (c d : View α)
  /-- `EdgeExtensionView`, EdgeExtension.h:106-165. -/
  | edge (m : Mode α) (xo yo w h : Int) (c : View α)

variable {α : Type}

/-- `cols()` and `rows()` of each view: ImageTransform.h:71-72, 155-156, 238-239, 320-321, 401-402;
Manipulation.h:113-114, 243-248; PerPixelViews.tcc:81-82; EdgeExtension.h:139-140. -/
def View.size : View α → Int × Int
  | .mem w h _ => (w, h)
  | .lazy w h _ => (w, h)
  | .index w h _ => (w, h)
  | .crop _ _ _ di dj => (di, dj)
  | .transpose c => (c.size.2, c.size.1)
  | .rot180 c => c.size
  | .rot90cw c => (c.size.2, c.size.1)
  | .rot90ccw c => (c.size.2, c.size.1)
  | .flipV c => c.size
  | .subsample c xd yd => (1 + (c.size.1 - 1).tdiv xd, 1 + (c.size.2 - 1).tdiv yd)
  | .unary _ c => c.size
  | .binary _ c _ => c.size
  | .edge _ _ _ w h _ => (w, h)

def View.cols (v : View α) : Int := v.size.1
def View.rows (v : View α) : Int := v.size.2

/-- `operator()(i,j)`; `none` is a read outside the pixels of an image (undefined behaviour).
ImageView.h operator(); ImageTransform.h:77-79, 162-164, 245-247, 327-329, 408-410; Manipulation.h:121-124,
254-256; PerPixelViews.h:62-64, 119; PerPixelViews.tcc:86; EdgeExtension.h:144-146. -/
def View.eval [CommRing α] : View α → Int → Int → Option α
  | .mem w h data, i, j => if 0 ≤ i ∧ i < w ∧ 0 ≤ j ∧ j < h then data (i + j * w) else none
  | .lazy w h px, i, j => if 0 ≤ i ∧ i < w ∧ 0 ≤ j ∧ j < h then some (px i j) else none
  | .index _ _ f, i, j => some (f i j)
  | .crop c ci cj _ _, i, j => c.eval (ci + i) (cj + j)
  | .transpose c, i, j => c.eval j i
  | .rot180 c, i, j => c.eval (c.cols - 1 - i) (c.rows - 1 - j)
  | .rot90cw c, i, j => c.eval j (c.rows - 1 - i)
  | .rot90ccw c, i, j => c.eval (c.cols - 1 - j) i
  | .flipV c, i, j => c.eval i (c.rows - 1 - j)
  | .subsample c xd yd, i, j => c.eval (xd * i) (yd * j)
  | .unary f c, i, j => (c.eval i j).map f
  | .binary f c d, i, j => (c.eval i j).bind fun a => (d.eval i j).map fun b => f a b
  | .edge m xo yo _ _ c, i, j =>
    m.eval { cols := c.cols, rows := c.rows, get := fun x y => c.eval x y } (i + xo) (j + yo)

/-! ### Pixel accessors -/

/-- The pixel accessors of the views. -/
inductive Acc (α : Type) where
  /-- `MemoryStridingPixelAccessor`, PixelAccessors.h:53-112: position, row stride, number of pixels. -/
  | ptr (data : Int → Option α) (n rstride k : Int)
  /-- `ProceduralPixelAccessor`, PixelAccessors.h:122-161. -/
  | proc (v : View α) (c r : Int)
  | transpose (a : Acc α)
  | rot180 (a : Acc α)
  | rot90cw (a : Acc α)
  | rot90ccw (a : Acc α)
  | flipV (a : Acc α)
  | subsample (a : Acc α) (xd yd : Int)
  | unary (f : α → α) (a : Acc α)
  | binary (f : α → α → α) (a b : Acc α)

/-- `advance(dc,dr)`: PixelAccessors.h:90-93, 146; ImageTransform.h:51-54, 135-138, 217-220, 299-302, 381-384;
Manipulation.h:203-208; PerPixelViews.h:95; PerPixelViews.tcc:46-47. -/
def Acc.advance : Acc α → Int → Int → Acc α
  | .ptr data n rs k, x, y => .ptr data n rs (k + (x + y * rs))
  | .proc v c r, x, y => .proc v (c + x) (r + y)
  | .transpose a, x, y => .transpose (a.advance y x)
  | .rot180 a, x, y => .rot180 (a.advance (-x) (-y))
  | .rot90cw a, x, y => .rot90cw (a.advance y (-x))
  | .rot90ccw a, x, y => .rot90ccw (a.advance (-y) x)
  | .flipV a, x, y => .flipV (a.advance x (-y))
  | .subsample a xd yd, x, y => .subsample (a.advance (xd * x) (yd * y)) xd yd
  | .unary f a, x, y => .unary f (a.advance x y)
  | .binary f a b, x, y => .binary f (a.advance x y) (b.advance x y)

/-- The four unit moves, as one function because they call each other (PixelAccessors.h:84-87, 139-142;
ImageTransform.h:45-48, 129-132, 211-214, 293-296, 375-378; Manipulation.h:183-194; PerPixelViews.h:89-92;
PerPixelViews.tcc:40-43). -/
inductive Move where
  | nextCol | prevCol | nextRow | prevRow

def Acc.move : Acc α → Move → Acc α
  | .ptr data n rs k, .nextCol => .ptr data n rs (k + 1)
  | .ptr data n rs k, .prevCol => .ptr data n rs (k - 1)
  | .ptr data n rs k, .nextRow => .ptr data n rs (k + rs)
  | .ptr data n rs k, .prevRow => .ptr data n rs (k - rs)
  | .proc v c r, .nextCol => .proc v (c + 1) r
  | .proc v c r, .prevCol => .proc v (c - 1) r
  | .proc v c r, .nextRow => .proc v c (r + 1)
  | .proc v c r, .prevRow => .proc v c (r - 1)
  | .transpose a, .nextCol => .transpose (a.move .nextRow)
  | .transpose a, .prevCol => .transpose (a.move .prevRow)
  | .transpose a, .nextRow => .transpose (a.move .nextCol)
  | .transpose a, .prevRow => .transpose (a.move .prevCol)
  | .rot180 a, .nextCol => .rot180 (a.move .prevCol)
  | .rot180 a, .prevCol => .rot180 (a.move .nextCol)
  | .rot180 a, .nextRow => .rot180 (a.move .prevRow)
  | .rot180 a, .prevRow => .rot180 (a.move .nextRow)
  | .rot90cw a, .nextCol => .rot90cw (a.move .prevRow)
  | .rot90cw a, .prevCol => .rot90cw (a.move .nextRow)
  | .rot90cw a, .nextRow => .rot90cw (a.move .nextCol)
  | .rot90cw a, .prevRow => .rot90cw (a.move .prevCol)
  | .rot90ccw a, .nextCol => .rot90ccw (a.move .nextRow)
  | .rot90ccw a, .prevCol => .rot90ccw (a.move .prevRow)
  | .rot90ccw a, .nextRow => .rot90ccw (a.move .prevCol)
  | .rot90ccw a, .prevRow => .rot90ccw (a.move .nextCol)
  | .flipV a, .nextCol => .flipV (a.move .nextCol)
  | .flipV a, .prevCol => .flipV (a.move .prevCol)
  | .flipV a, .nextRow => .flipV (a.move .prevRow)
  | .flipV a, .prevRow => .flipV (a.move .nextRow)
  | .subsample a xd yd, .nextCol => .subsample (a.advance xd 0) xd yd
  | .subsample a xd yd, .prevCol => .subsample (a.advance (-xd) 0) xd yd
  | .subsample a xd yd, .nextRow => .subsample (a.advance 0 yd) xd yd
  | .subsample a xd yd, .prevRow => .subsample (a.advance 0 (-yd)) xd yd
  | .unary f a, m => .unary f (a.move m)
  | .binary f a b, m => .binary f (a.move m) (b.move m)

/-- `operator*`: PixelAccessors.h:104-111, 161; ImageTransform.h:56 (and alike); Manipulation.h:210;
PerPixelViews.h:96; PerPixelViews.tcc:48. -/
def Acc.deref [CommRing α] : Acc α → Option α
  | .ptr data n _ k => if 0 ≤ k ∧ k < n then data k else none
  | .proc v c r => v.eval c r
  | .transpose a => a.deref
  | .rot180 a => a.deref
  | .rot90cw a => a.deref
  | .rot90ccw a => a.deref
  | .flipV a => a.deref
  | .subsample a _ _ => a.deref
  | .unary f a => a.deref.map f
  | .binary f a b => a.deref.bind fun x => b.deref.map fun y => f x y

/-- `origin()`: ImageView.h; PerPixelViews.h:60, 118; ImageTransform.h:75, 158-160, 241-243, 323-325, 404-406;
Manipulation.h:117-119, 251-253; PerPixelViews.tcc:85; EdgeExtension.h:143; BlockRasterize.h origin(). -/
def View.origin : View α → Acc α
  | .mem w h data => .ptr data (w * h) w 0
  | .lazy w h px => .proc (.lazy w h px) 0 0
  | .index w h f => .proc (.index w h f) 0 0
  | .crop c ci cj _ _ => c.origin.advance ci cj
  | .transpose c => .transpose c.origin
  | .rot180 c => .rot180 (c.origin.advance (c.cols - 1) (c.rows - 1))
  | .rot90cw c => .rot90cw (c.origin.advance 0 (c.rows - 1))
  | .rot90ccw c => .rot90ccw (c.origin.advance (c.cols - 1) 0)
  | .flipV c => .flipV (c.origin.advance 0 (c.rows - 1))
  | .subsample c xd yd => .subsample c.origin xd yd
  | .unary f c => .unary f c.origin
  | .binary f c d => .binary f c.origin d.origin
  | .edge m xo yo w h c => .proc (.edge m xo yo w h c) 0 0

/-- `n` times the same move (the loop increments of `rasterize`). -/
def Acc.moves (a : Acc α) (m : Move) : Nat → Acc α
  | 0 => a
  | n + 1 => (a.moves m n).move m

/-- `vw::rasterize(src, dest, bbox)`, ImageViewBase.h:283-316: the value its loops store in pixel (i,j) of the
destination.  The source accessor is advanced to the corner of the box, then `next_row` is applied once per
row and `next_col` once per column. -/
def View.raster [CommRing α] (v : View α) (b : Rect) (i j : Nat) : Option α :=
  (((v.origin.advance b.x0 b.y0).moves .nextRow j).moves .nextCol i).deref

/-! ### prerasterize -/

/-- `BBox2i + Vector2i` (BBox.tcc:281-286, 309-): empty boxes stay as they are. -/
def shift (b : Rect) (x y : Int) : Rect :=
  if b.empty then b else ⟨b.x0 + x, b.y0 + y, b.x1 + x, b.y1 + y⟩

/-- `BBox2i(minx, miny, width, height)` (BBox.h). -/
def boxAt (x y w h : Int) : Rect := ⟨x, y, x + w, y + h⟩

/-- One pass of the loop of `SubsampleView::prerasterize` (Manipulation.h:272-283): rasterize `src` over `b` into
`crop(buffer, b - bbox.min())`, where the buffer is as wide as `bbox`. -/
def fillBuf [CommRing α] (src : View α) (bbox b : Rect) (data : Int → Option α) : Int → Option α :=
  fun k =>
    let x := k % bbox.width
    let y := k / bbox.width
    let i := x - (b.x0 - bbox.x0)
    let j := y - (b.y0 - bbox.y0)
    if 0 ≤ i ∧ i < b.width ∧ 0 ≤ j ∧ j < b.height then src.raster b i.toNat j.toNat else data k

/-- The loop of Manipulation.h:272-283 over the boxes; `pre` is the child's prerasterize. -/
def fillLoop [CommRing α] (pre : Rect → Option (View α)) (xd yd : Int) (bbox : Rect) :
    List Rect → (Int → Option α) → Option (Int → Option α)
  | [], data => some data
  | b :: rest, data => do
    let c' ← pre (boxAt (xd * b.x0) (yd * b.y0) (xd * (b.width - 1) + 1) (xd * (b.height - 1) + 1))
    fillLoop pre xd yd bbox rest (fillBuf (.subsample c' xd yd) bbox b data)

/-- `prerasterize(bbox)`; `none` is an exception. ImageTransform.h:100-104, 183-187, 265-269, 347-351, 431-435;
Manipulation.h:143-147, 260-287; PerPixelViews.h:67, 130; PerPixelViews.tcc:90; EdgeExtension.h:155-161.

`ImageView::prerasterize` returns the image.  `BlockRasterizeView::prerasterize` (BlockRasterize.h:106-113) returns a
crop of a buffer that holds the pixels of the box (C25/C26); a request that reaches outside the image throws
(C26).  An empty request is modelled as accepted; see `VW.Block.empty_width_index_out_of_range` for the case
in which the code rejects one. -/
def View.pre [CommRing α] : View α → Rect → Option (View α)
  | .mem w h data, _ => some (.mem w h data)
  | .lazy w h px, b =>
    if b.empty ∨ (0 ≤ b.x0 ∧ b.x1 ≤ w ∧ 0 ≤ b.y0 ∧ b.y1 ≤ h) then
      some (.crop (.mem b.width b.height fun k => some (px (b.x0 + k % b.width) (b.y0 + k / b.width)))
        (-b.x0) (-b.y0) w h)
    else none
  | .index w h f, _ => some (.index w h f)
  | .crop c ci cj di dj, b => do return .crop (← c.pre (shift b ci cj)) ci cj di dj
  | .transpose c, b => do return .transpose (← c.pre (boxAt b.y0 b.x0 b.height b.width))
  | .rot180 c, b => do return .rot180 (← c.pre (boxAt (c.cols - b.x1) (c.rows - b.y1) b.width b.height))
  | .rot90cw c, b => do return .rot90cw (← c.pre (boxAt b.y0 (c.rows - b.x1) b.height b.width))
  | .rot90ccw c, b => do return .rot90ccw (← c.pre (boxAt (c.cols - b.y1) b.x0 b.height b.width))
  | .flipV c, b => do return .flipV (← c.pre (boxAt b.x0 (c.rows - b.y1) b.width b.height))
  | .subsample c xd yd, b => do
    let sw := max 2 (b.width.tdiv xd)
    let sh := max 2 (b.height.tdiv yd)
    let data ← fillLoop (fun r => c.pre r) xd yd b (subdivide b sw sh true false) (fun _ => none)
    return .crop (.mem b.width b.height data) (-b.x0) (-b.y0)
      (1 + (c.cols - 1).tdiv xd) (1 + (c.rows - 1).tdiv yd)
  | .unary f c, b => do return .unary f (← c.pre b)
  | .binary f c d, b => do
    let c' ← c.pre b
    let d' ← d.pre b
    if c'.size = d'.size then return .binary f c' d' else none
  | .edge m xo yo w h c, b => do
    let src := m.sourceBBox c.cols c.rows (shift b xo yo)
    let src := if src.empty then ⟨0, 0, 0, 0⟩ else src
    return .edge m xo yo w h (← c.pre src)

/-- `view.rasterize(dest, bbox)` of every view: `vw::rasterize(prerasterize(bbox), dest, bbox)`. The result is
the content of the destination. -/
def View.rasterize [CommRing α] (v : View α) (b : Rect) : Option (Nat → Nat → Option α) := do
  let v' ← v.pre b
  return v'.raster b

end VW.View
