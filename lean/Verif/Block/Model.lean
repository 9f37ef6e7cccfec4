import Verif.Cache.Model
/-
Model of `src/vw/Image/BlockProcessor.h`, `src/vw/Image/BlockRasterize.{h,cc}`.

Coordinates are unbounded integers (int32 overflow is not modelled); C++ `/` and `%` are `Int.tdiv`
and `Int.tmod`.  A `BBox2i` is a `Rect`.  The cache behind `block_cache` is the cache model of
`Verif.Cache.Model`, whose calls are atomic.
-/
namespace VW.Block

/-- `BBox2i`: min corner (x0,y0), max corner (x1,y1) (src/vw/Math/BBox.h). -/
structure Rect where
  x0 : Int
  y0 : Int
  x1 : Int
  y1 : Int
deriving DecidableEq, Repr

/-- `BBox::contains(point)` (BBox.tcc:124-129). -/
def Rect.has (r : Rect) (x y : Int) : Bool :=
  decide (r.x0 ≤ x) && decide (r.y0 ≤ y) && decide (x < r.x1) && decide (y < r.y1)

/-- `BBox::empty()` (BBox.tcc:156-160). -/
def Rect.empty (r : Rect) : Bool := decide (r.x0 ≥ r.x1) || decide (r.y0 ≥ r.y1)

/-- `BBox::crop` (BBox.tcc:110-120). -/
def Rect.crop (a b : Rect) : Rect :=
  { x0 := if a.x0 < b.x0 then b.x0 else a.x0,
    y0 := if a.y0 < b.y0 then b.y0 else a.y0,
    x1 := if a.x1 > b.x1 then b.x1 else a.x1,
    y1 := if a.y1 > b.y1 then b.y1 else a.y1 }

/-- `BBox::width()`, `BBox::height()` (BBox.tcc:170-181): 0 for an empty box. -/
def Rect.width (r : Rect) : Int := if r.empty then 0 else r.x1 - r.x0
def Rect.height (r : Rect) : Int := if r.empty then 0 else r.y1 - r.y0

/-- `Vector2i` used as a block size. -/
structure Size where
  x : Int
  y : Int
deriving DecidableEq, Repr

/-- `Info::round_down` (BlockProcessor.h:117-119). -/
def roundDown (val md : Int) : Int :=
  val + (if val ≥ 0 then -(val.tmod md) else ((-val - 1).tmod md) - md + 1)

/-- `BlockThread::Info` (BlockProcessor.h:70-125); the functor and the mutex are left out. -/
structure Info where
  total : Rect
  block : Rect
  bs : Size
deriving Repr

/-- `Info::Info` (BlockProcessor.h:74-77). -/
def Info.start (total : Rect) (bs : Size) : Info :=
  let x := roundDown total.x0 bs.x
  let y := roundDown total.y0 bs.y
  { total := total, block := ⟨x, y, x + bs.x, y + bs.y⟩, bs := bs }

/-- `Info::bbox` (BlockProcessor.h:80-84). -/
def Info.bbox (i : Info) : Rect := i.block.crop i.total

/-- `Info::complete` (BlockProcessor.h:92-94). -/
def Info.complete (i : Info) : Bool := decide (i.block.y0 ≥ i.total.y1)

/-- `Info::advance` (BlockProcessor.h:102-110). -/
def Info.advance (i : Info) : Info :=
  let x := i.block.x0 + i.bs.x
  if x ≥ i.total.x1 then
    let x' := roundDown i.total.x0 i.bs.x
    let y' := i.block.y0 + i.bs.y
    { i with block := ⟨x', y', x' + i.bs.x, y' + i.bs.y⟩ }
  else { i with block := ⟨x, i.block.y0, x + i.bs.x, i.block.y1⟩ }

/-! ### BlockProcessor::operator() with its threads -/

/-- The state of one call of `BlockProcessor::operator()` (BlockProcessor.h:153-179). The threads are
interchangeable, so only how many are at the top of the loop (`idle`, which includes threads not yet
started), which boxes are inside the functor (`running`) and how many have returned (`stopped`) is
kept. `finished` lists the boxes on which the functor has returned (it is not read by any step). -/
structure PState where
  info : Info
  idle : Nat
  running : List Rect
  stopped : Nat
  finished : List Rect

def PState.start (total : Rect) (bs : Size) (threads : Nat) : PState :=
  { info := Info.start total bs, idle := threads, running := [], stopped := 0, finished := [] }

/-- `BlockThread::operator()` (BlockProcessor.h:129-143): the critical section under the info mutex is
one step (`grab` or `stop`), the functor call starts with `grab` and ends with `finish`. -/
inductive PStep : PState → PState → Prop
  | grab {s} : 0 < s.idle → s.info.complete = false →
      PStep s { s with info := s.info.advance, idle := s.idle - 1,
                       running := s.info.bbox :: s.running }
  | stop {s} : 0 < s.idle → s.info.complete = true →
      PStep s { s with idle := s.idle - 1, stopped := s.stopped + 1 }
  | finish {s l1 b l2} : s.running = l1 ++ b :: l2 →
      PStep s { s with running := l1 ++ l2, idle := s.idle + 1, finished := b :: s.finished }

/-- All schedules of a call. -/
inductive PReach (total : Rect) (bs : Size) (threads : Nat) : PState → Prop
  | init : PReach total bs threads (PState.start total bs threads)
  | step {s s'} : PReach total bs threads s → PStep s s' → PReach total bs threads s'

/-- The joins succeed when all threads have returned (BlockProcessor.h:176-178). -/
def PState.joined (s : PState) : Prop := s.idle = 0 ∧ s.running = []

/-! ### Images, block generators and the block table -/

/-- `ImageView`: a buffer of `w × h` pixels and `pl` planes (src/vw/Image/ImageView.h). -/
structure Img (α : Type) where
  w : Int
  h : Int
  pl : Int
  data : Int → Int → Int → α

/-- Reading a buffer; `none` is an access outside the buffer. -/
def Img.read {α : Type} (im : Img α) (x y p : Int) : Option α :=
  if 0 ≤ x ∧ x < im.w ∧ 0 ≤ y ∧ y < im.h ∧ 0 ≤ p ∧ p < im.pl then some (im.data x y p) else none

/-- The child view: a fixed image; pixels do not change over time. -/
structure Child (α : Type) where
  cols : Int
  rows : Int
  planes : Int
  px : Int → Int → Int → α

variable {α : Type}

/-- `BlockGenerator::generate` (BlockProcessor.h:222-226). `child->rasterize(dest, bbox)` is modelled by
its contract: dest(i,j,p) = child(bbox.min + (i,j), p). -/
def Child.generate (c : Child α) (b : Rect) : Img α :=
  { w := b.width, h := b.height, pl := c.planes, data := fun i j p => c.px (b.x0 + i) (b.y0 + j) p }

/-- `BlockGenerator::size` (BlockProcessor.h:217-219), `psz` is sizeof(pixel_type). -/
def Child.blockBytes (c : Child α) (psz : Nat) (b : Rect) : Nat :=
  b.width.toNat * b.height.toNat * c.planes.toNat * psz

/-- `BlockGeneratorManager` (BlockProcessor.h:231-241): the table maps an index to a cache line. -/
structure Manager where
  bs : Size
  W : Int
  H : Int
  table : Int → Option Cache.Id

/-- The pairs (iy, ix) in the order of the loops of `initialize` (BlockProcessor.h:268-269). -/
def indices (W H : Int) : List (Int × Int) :=
  (List.range H.toNat).flatMap fun iy : Nat => (List.range W.toNat).map fun ix : Nat => ((ix : Int), (iy : Int))

/-- The box of block (ix,iy) (BlockProcessor.h:270-272). -/
def cellBox (c : Child α) (bs : Size) (ix iy : Int) : Rect :=
  Rect.crop ⟨ix * bs.x, iy * bs.y, ix * bs.x + bs.x, iy * bs.y + bs.y⟩ ⟨0, 0, c.cols, c.rows⟩

/-- The loop body of `initialize` (BlockProcessor.h:270-274), for a list of indices. -/
def fillTable (c : Child α) (psz : Nat) (bs : Size) (W : Int) :
    List (Int × Int) → Cache.State (Img α) → (Int → Option Cache.Id) →
    Option (Cache.State (Img α) × (Int → Option Cache.Id))
  | [], s, t => some (s, t)
  | (ix, iy) :: rest, s, t =>
    match Cache.insert s (c.blockBytes psz (cellBox c bs ix iy))
        (fun _ => some (c.generate (cellBox c bs ix iy))) with
    | .ok s' id => fillTable c psz bs W rest s' (fun k => if k = ix + iy * W then some id else t k)
    | _ => none

/-- `BlockGeneratorManager::initialize` (BlockProcessor.h:249-277); `none` is the ArgumentErr for an
illegal block size. -/
def initTable (c : Child α) (psz : Nat) (bs : Size) (s : Cache.State (Img α)) :
    Option (Cache.State (Img α) × Manager) :=
  if bs.x ≤ 0 ∨ bs.y ≤ 0 then none else
  let W := (c.cols - 1).tdiv bs.x + 1
  let H := (c.rows - 1).tdiv bs.y + 1
  match fillTable c psz bs W (indices W H) s (fun _ => none) with
  | some (s', t) => some (s', { bs := bs, W := W, H := H, table := t })
  | none => none

/-- `get_block_index` (BlockProcessor.h:280-282). -/
def Manager.blockIndex (m : Manager) (x y : Int) : Int × Int := (x.tdiv m.bs.x, y.tdiv m.bs.y)

/-- `get_block_start_pixel` (BlockProcessor.h:297-300). -/
def Manager.startPixel (m : Manager) (i : Int × Int) : Int × Int := (i.1 * m.bs.x, i.2 * m.bs.y)

/-- `block(Vector2i)` with `check_block_index` (BlockProcessor.h:303-317); `none` is the ArgumentErr. -/
def Manager.lookup (m : Manager) (i : Int × Int) : Option Cache.Id :=
  if i.1 < 0 ∨ i.1 ≥ m.W ∨ i.2 < 0 ∨ i.2 ≥ m.H then none else m.table (i.1 + i.2 * m.W)

/-- `only_one_block` (BlockProcessor.h:334). -/
def Manager.onlyOne (m : Manager) : Bool := decide (m.W * m.H = 1)

/-! ### Block sizes -/

/-- `get_default_block_size` (BlockProcessor.h:187-199). Divisions by zero (empty image) give 0 here. -/
def defaultBlockSize (rows cols planes psz : Int) : Size :=
  let r := (2097152 : Int).tdiv (planes * cols * psz)
  { x := cols, y := if r < 1 then 1 else if r > rows then rows else r }

/-- `adjust_block_size` (BlockRasterize.cc:31-34). -/
def adjustBlockSize (b : Size) : Size := { x := min b.x 5120, y := min b.y 5120 }

/-- The block size the `BlockRasterizeView` constructor ends up with (BlockRasterize.h:57-63). -/
def effectiveBlockSize (b : Size) (rows cols planes psz : Int) : Size :=
  adjustBlockSize (if b.x ≤ 0 ∨ b.y ≤ 0 then defaultBlockSize rows cols planes psz else b)

/-! ### BlockRasterizeView -/

/-- `BlockRasterizeView` (BlockRasterize.h:44-191): the child, the block size, and the block table if a
cache is used. -/
structure View (α : Type) where
  child : Child α
  bs : Size
  mgr : Option Manager

/-- The constructor (BlockRasterize.h:50-67) without and with a cache. -/
def View.plain (c : Child α) (b : Size) (psz : Nat) : View α :=
  { child := c, bs := effectiveBlockSize b c.rows c.cols c.planes psz, mgr := none }

def View.cached (c : Child α) (b : Size) (psz : Nat) (s : Cache.State (Img α)) :
    Option (Cache.State (Img α) × View α) :=
  let bs := effectiveBlockSize b c.rows c.cols c.planes psz
  match initTable c psz bs s with
  | some (s', m) => some (s', { child := c, bs := bs, mgr := some m })
  | none => none

/-- `BlockRasterizeView::operator()(x,y,p)` (BlockRasterize.h:74-100) on the cache state `s`, as a
relation between the state before, the state when the pixel has been read, and the value (`none`: read
outside the block buffer). -/
inductive View.ReadPixel (v : View α) (s : Cache.State (Img α)) (x y p : Int) :
    Cache.State (Img α) → Option α → Prop
  | single {m id s' img} : v.mgr = some m → m.onlyOne = true → m.table 0 = some id →
      Cache.step s (.deref id) = .ok s' (.val img) →
      View.ReadPixel v s x y p s' (img.read x y p)
  | block {m id s' img} : v.mgr = some m → m.onlyOne = false →
      m.lookup (m.blockIndex x y) = some id →
      Cache.step s (.deref id) = .ok s' (.val img) →
      View.ReadPixel v s x y p s'
        (img.read (x - (m.startPixel (m.blockIndex x y)).1) (y - (m.startPixel (m.blockIndex x y)).2) p)
  | direct : v.mgr = none → View.ReadPixel v s x y p s (some (v.child.px x y p))

/-- The pixels of a `w × h × pl` raster in loop order (planes, rows, columns), as in `vw::rasterize`
(src/vw/Image/ImageViewBase.h) and `ImageView::rasterize`. -/
def pixels (w h pl : Int) : List (Int × Int × Int) :=
  (List.range pl.toNat).flatMap fun p : Nat => (List.range h.toNat).flatMap fun j : Nat =>
    (List.range w.toNat).map fun i : Nat => ((i : Int), (j : Int), (p : Int))

/-- What a thread inside `RasterizeFunctor::operator()` (BlockRasterize.h:143-160) is doing: about to
get the block, or copying pixels: `src i j p` is the value for pixel (i,j,p) of the box, `todo` the pixels
still to copy, `held` the cache line to release at the end. -/
inductive Work (α : Type) where
  | fetch (b : Rect)
  | copy (b : Rect) (held : Option Cache.Id) (src : Int → Int → Int → Option α)
      (todo : List (Int × Int × Int))

def Work.box : Work α → Rect
  | .fetch b => b
  | .copy b _ _ _ => b

/-- State of one call of `rasterize(dest, bbox)` (BlockRasterize.h:119-126), together with the shared
cache. `dest` holds the pixels written so far; `bad` is set by an exception or an access outside a
buffer. -/
structure RState (α : Type) where
  info : Info
  idle : Nat
  running : List (Work α)
  stopped : Nat
  finished : List Rect
  cache : Cache.State (Img α)
  dest : Int → Int → Int → Option α
  bad : Bool

def RState.start (v : View α) (bbox : Rect) (threads : Nat) (c : Cache.State (Img α)) : RState α :=
  { info := Info.start bbox v.bs, idle := threads, running := [], stopped := 0, finished := [],
    cache := c, dest := fun _ _ _ => none, bad := false }

/-- `dest(i,j,p) = a` for a destination of `dw × dh × dp` pixels. -/
def inDest (dw dh dp i j p : Int) : Prop := 0 ≤ i ∧ i < dw ∧ 0 ≤ j ∧ j < dh ∧ 0 ≤ p ∧ p < dp

/-- The lines of the block table. -/
def View.Owns (v : View α) (id : Cache.Id) : Prop := ∃ m k, v.mgr = some m ∧ m.table k = some id

/-- One step of one thread inside `rasterize`, or (`env`) a cache call by anybody else: other views,
other threads, evictions caused by them, resizing. Nobody else can destroy the lines of this view, since
the view holds handles to them. -/
inductive RStep (v : View α) (bbox : Rect) (dw dh dp : Int) : RState α → RState α → Prop
  | grab {s} : 0 < s.idle → s.info.complete = false →
      RStep v bbox dw dh dp s
        { s with info := s.info.advance, idle := s.idle - 1,
                 running := .fetch s.info.bbox :: s.running }
  | stop {s} : 0 < s.idle → s.info.complete = true →
      RStep v bbox dw dh dp s { s with idle := s.idle - 1, stopped := s.stopped + 1 }
  | fetchCached {s l1 b l2 m id c' img} : s.running = l1 ++ .fetch b :: l2 → v.mgr = some m →
      m.lookup (m.blockIndex b.x0 b.y0) = some id →
      Cache.step s.cache (.deref id) = .ok c' (.val img) →
      RStep v bbox dw dh dp s
        { s with cache := c',
                 running := l1 ++ .copy b (some id)
                   (fun i j p => img.read (b.x0 - (m.startPixel (m.blockIndex b.x0 b.y0)).1 + i)
                     (b.y0 - (m.startPixel (m.blockIndex b.x0 b.y0)).2 + j) p)
                   (pixels b.width b.height v.child.planes) :: l2 }
  | fetchThrow {s l1 b l2 m} : s.running = l1 ++ .fetch b :: l2 → v.mgr = some m →
      m.lookup (m.blockIndex b.x0 b.y0) = none →
      RStep v bbox dw dh dp s { s with bad := true }
  | fetchPlain {s l1 b l2} : s.running = l1 ++ .fetch b :: l2 → v.mgr = none →
      RStep v bbox dw dh dp s
        { s with running := l1 ++ .copy b none (fun i j p => some (v.child.px (b.x0 + i) (b.y0 + j) p))
                   (pixels b.width b.height v.child.planes) :: l2 }
  | write {s l1 b h src i j p rest l2 a} : s.running = l1 ++ .copy b h src ((i, j, p) :: rest) :: l2 →
      src i j p = some a → inDest dw dh dp (b.x0 - bbox.x0 + i) (b.y0 - bbox.y0 + j) p →
      RStep v bbox dw dh dp s
        { s with running := l1 ++ .copy b h src rest :: l2,
                 dest := fun x y q => if x = b.x0 - bbox.x0 + i ∧ y = b.y0 - bbox.y0 + j ∧ q = p
                   then some a else s.dest x y q }
  | writeBad {s l1 b h src i j p rest l2} : s.running = l1 ++ .copy b h src ((i, j, p) :: rest) :: l2 →
      (src i j p = none ∨ ¬ inDest dw dh dp (b.x0 - bbox.x0 + i) (b.y0 - bbox.y0 + j) p) →
      RStep v bbox dw dh dp s { s with bad := true }
  | finishCached {s l1 b id src l2 c' o} : s.running = l1 ++ .copy b (some id) src [] :: l2 →
      Cache.step s.cache (.release id) = .ok c' o →
      RStep v bbox dw dh dp s
        { s with cache := c', running := l1 ++ l2, idle := s.idle + 1, finished := b :: s.finished }
  | finishPlain {s l1 b src l2} : s.running = l1 ++ .copy b none src [] :: l2 →
      RStep v bbox dw dh dp s
        { s with running := l1 ++ l2, idle := s.idle + 1, finished := b :: s.finished }
  | env {s op c'} : (∀ id, v.Owns id → op ≠ .destroy id) →
      ((∃ o, Cache.step s.cache op = .ok c' o) ∨ Cache.step s.cache op = .thrown c' ∨
        Cache.step s.cache op = .blocked c') →
      RStep v bbox dw dh dp s { s with cache := c' }

inductive RReach (v : View α) (bbox : Rect) (dw dh dp : Int) (threads : Nat) (c : Cache.State (Img α)) :
    RState α → Prop
  | init : RReach v bbox dw dh dp threads c (RState.start v bbox threads c)
  | step {s s'} : RReach v bbox dw dh dp threads c s → RStep v bbox dw dh dp s s' →
      RReach v bbox dw dh dp threads c s'

def RState.joined (s : RState α) : Prop := s.idle = 0 ∧ s.running = []

/-- The view returned by `prerasterize(bbox)` (BlockRasterize.h:108-116): the buffer seen through
`CropView(buf, BBox2i(-min.x, -min.y, cols, rows))`; `CropView::operator()(x,y)` reads the child at
(x + min.x, y + min.y) (src/vw/Image/Manipulation.h). -/
def prerasterized (bbox : Rect) (dest : Int → Int → Int → Option α) (x y p : Int) : Option α :=
  dest (x + -bbox.x0) (y + -bbox.y0) p

end VW.Block
