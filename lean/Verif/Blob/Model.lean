import Verif.Image.Grassfire
import Verif.Graph.Eqv
/-
Model of `blob::BlobIndex` and `blob::BlobCompressed`, src/vw/Image/BlobIndex.h:64-306 and BlobIndex.cc:31-184, 381-390
(property C52).

Pixels are at integer places, the source is the predicate "is valid". Labels (uint32) and coordinates (int32) do not
overflow. The pixel accessors are places; the loops are folds over the places in the order of the loops.
-/
namespace VW.Blob
open VW.Grassfire (Pos raster inImage)

/-! ### First pass: provisional labels and the graph of labels -/

/-- The output image so far, the next free label (`m_blob_count`) and the edges of `connections`. -/
structure Labels where
  lab : Pos → Nat
  count : Nat
  edges : List (Nat × Nat)

/-- Writing a pixel of the output image. -/
def set (d : Pos → Nat) (p : Pos) (v : Nat) : Pos → Nat := fun q => if q = p then v else d q

/-- The top row, BlobIndex.h:144-167. -/
def visitTop (valid : Pos → Bool) (s : Labels) (p : Pos) : Labels :=
  if valid p then
    if p.1 ≠ 0 ∧ valid (p.1 - 1, p.2) then { s with lab := set s.lab p (s.lab (p.1 - 1, p.2)) }
    else { s with lab := set s.lab p s.count, count := s.count + 1 }
  else s

/-- One earlier neighbour n: the label of the pixel so far is d. BlobIndex.h:196-201, repeated at 205-210, 219-224 and
230-235. -/
def look (valid : Pos → Bool) (lab : Pos → Nat) (a : Nat × List (Nat × Nat)) (n : Pos) : Nat × List (Nat × Nat) :=
  if valid n then
    if a.1 ≠ 0 ∧ a.1 ≠ lab n then (a.1, (lab n, a.1) :: a.2)
    else (lab n, a.2)
  else a

/-- The earlier neighbours in the order in which they are visited, BlobIndex.h:192-236. -/
def neighbours (W : Nat) (p : Pos) : List Pos :=
  (if p.1 ≠ 0 then [(p.1 - 1, p.2), (p.1 - 1, p.2 - 1)] else []) ++
  [(p.1, p.2 - 1)] ++
  (if p.1 ≠ (W : Int) - 1 then [(p.1 + 1, p.2 - 1)] else [])

/-- The other rows, BlobIndex.h:186-246. The label of a pixel not yet visited is 0 (`fill(dst,0)`, line 125). -/
def visit (valid : Pos → Bool) (W : Nat) (s : Labels) (p : Pos) : Labels :=
  if valid p then
    let a := (neighbours W p).foldl (look valid s.lab) (s.lab p, s.edges)
    if a.1 = 0 then { lab := set s.lab p s.count, count := s.count + 1, edges := a.2 }
    else { lab := set s.lab p a.1, count := s.count, edges := a.2 }
  else s

/-- The whole first pass and the last edge, BlobIndex.h:120-258. -/
def label (valid : Pos → Bool) (W H : Nat) : Labels :=
  let s := (raster 0 W 0 1).foldl (visitTop valid) { lab := fun _ => 0, count := 1, edges := [] }
  let s := (raster 0 W 1 H).foldl (visit valid W) s
  { s with edges := (s.count - 1, s.count - 1) :: s.edges }

/-! ### boost::connected_components -/

/-- Joining the classes of the two ends of an edge; the name of a class is its smallest vertex. -/
def join (f : Nat → Nat) (e : Nat × Nat) : Nat → Nat :=
  fun v => if f v = max (f e.1) (f e.2) then min (f e.1) (f e.2) else f v

/-- The smallest vertex connected to a vertex. -/
def rep (es : List (Nat × Nat)) : Nat → Nat := es.foldr (fun e f => join f e) id

/-- The vertices that are the smallest of their component. -/
def reps (n : Nat) (es : List (Nat × Nat)) : List Nat := (List.range n).filter (fun v => rep es v = v)

/-- `boost::connected_components` (not in the repository), called at BlobIndex.h:260: a depth first search from vertices
0, 1, ... in turn, so that components are numbered in the order of their smallest vertices. -/
def component (n : Nat) (es : List (Nat × Nat)) (v : Nat) : Nat := (reps n es).idxOf (rep es v)

/-! ### BlobCompressed -/

/-- `BlobCompressed`, BlobIndex.h:68-74: per row the starts and ends of runs, relative to the corner. (The parallel lists
m_row_start[i], m_row_end[i] are a list of pairs here.) -/
structure Compressed where
  minX : Int
  minY : Int
  rows : List (List (Int × Int))
deriving DecidableEq

/-- `BlobCompressed()`, BlobIndex.cc:74. -/
def Compressed.empty : Compressed := ⟨-1, -1, []⟩

/-- Exceptions and undefined behaviour. -/
inductive Err where
  /-- "Add_row expects rows to be added in order." -/
  | rowOrder
  /-- "It appears a segment is trying to be inserted out of order." -/
  | segmentOrder
  /-- "Insert seems wrong." -/
  | insertWrong
  /-- undefined behaviour: `back()` of an empty list, an element outside of a vector -/
  | ub
deriving DecidableEq, Repr

/-- `shift_x`, BlobIndex.cc:31-41. -/
def shiftX (b : Compressed) (v : Int) : Compressed :=
  { minX := b.minX + v, minY := b.minY, rows := b.rows.map (·.map (fun s => (s.1 - v, s.2 - v))) }

/-- Lines 171-178 of BlobIndex.cc: appending a run to the last row (r is the row before, rs the rows before it). -/
def push (b : Compressed) (rs : List (List (Int × Int))) (r : List (Int × Int)) (x w : Int) : Compressed :=
  let b' : Compressed := { b with rows := rs ++ [r ++ [(x - b.minX, x - b.minX + w)]] }
  if b.minX > x then shiftX b' (x - b.minX) else b'

/-- `add_row`, BlobIndex.cc:145-182. -/
def addRow (b : Compressed) (x y w : Int) : Except Err Compressed :=
  if b.minX = -1 then .ok { minX := x, minY := y, rows := [b.rows.headD [] ++ [(0, w)]] }
  else if ¬ (y = b.minY + b.rows.length ∨ y = b.minY + b.rows.length - 1) then .error .rowOrder
  else if y = b.minY + b.rows.length then .ok (push b b.rows [] x w)
  else match b.rows.getLast? with
    | none => .error .ub
    | some r => match r.getLast? with
      | none => .error .ub
      | some s => if x < s.1 + b.minX then .error .segmentOrder else .ok (push b b.rows.dropLast r x w)

/-- The places a run stands for. -/
def runPlaces (y x0 x1 : Int) : List Pos :=
  (List.range (x1 - x0).toNat).map (fun (c : Nat) => (x0 + (c : Int), y))

/-- The places of a row. -/
def rowPlaces (minX y : Int) (row : List (Int × Int)) : List Pos :=
  row.flatMap (fun s => runPlaces y (minX + s.1) (minX + s.2))

/-- The places of rows from height y on. -/
def rowsPlaces (minX : Int) : Int → List (List (Int × Int)) → List Pos
  | _, [] => []
  | y, r :: rs => rowPlaces minX y r ++ rowsPlaces minX (y + 1) rs

/-- `decompress`, BlobIndex.cc:381-390. -/
def decompress (b : Compressed) : List Pos := rowsPlaces b.minX b.minY b.rows

/-- `size`, BlobIndex.cc:76-84. -/
def size (b : Compressed) : Int := (b.rows.map (fun r => (r.map (fun s => s.2 - s.1)).sum)).sum

/-- `bounding_box`, BlobIndex.cc:106-117: (min x, min y, max x, max y), max exclusive. -/
def boundingBox (b : Compressed) : Int × Int × Int × Int :=
  let maxCol := b.rows.foldl (fun m r => r.foldl (fun m s => if s.2 > m then s.2 else m) m) 0
  (b.minX, b.minY, b.minX + maxCol, b.minY + b.rows.length)

/-- One row of `intersects`, BlobIndex.cc:127-136; (x0,y0)-(x1,y1) is the box, y the height of the row. -/
def rowIntersects (minX y x0 y0 x1 y1 : Int) (r : List (Int × Int)) : Bool :=
  match r.head?, r.getLast? with
  | some f, some l => ¬ (y < y0 ∨ y ≥ y1) && (l.2 + minX > x0 && f.1 + minX < x1)
  | _, _ => false

/-- The loop of `intersects`. -/
def rowsIntersect (minX x0 y0 x1 y1 : Int) : Int → List (List (Int × Int)) → Bool
  | _, [] => false
  | y, r :: rs => rowIntersects minX y x0 y0 x1 y1 r || rowsIntersect minX x0 y0 x1 y1 (y + 1) rs

/-- `intersects`, BlobIndex.cc:119-138. -/
def intersects (b : Compressed) (x0 y0 x1 y1 : Int) : Bool :=
  if y1 ≤ b.minY ∨ y0 ≥ b.minY + b.rows.length then false
  else rowsIntersect b.minX x0 y0 x1 y1 b.minY b.rows

/-! ### Second pass: run length encoding of the components -/

/-- The blobs and the local variables of a row, BlobIndex.h:271-276. -/
structure Scan where
  blobs : List Compressed
  building : Bool
  start : Int
  index : Nat

/-- `m_c_blob[index-1].add_row(...)`. -/
def addTo (blobs : List Compressed) (index : Nat) (x y w : Int) : Except Err (List Compressed) :=
  if index = 0 then .error .ub
  else match blobs[index - 1]? with
    | none => .error .ub
    | some b => (addRow b x y w).map (fun b' => blobs.set (index - 1) b')

/-- One pixel, BlobIndex.h:281-297. -/
def scanPixel (lab : Pos → Nat) (comp : Nat → Nat) (y : Int) (s : Scan) (c : Nat) : Except Err Scan :=
  if lab (c, y) ≠ 0 then
    if s.building ∧ s.index ≠ comp (lab (c, y)) then .error .insertWrong
    else if ¬ s.building then .ok { s with building := true, index := comp (lab (c, y)), start := c }
    else .ok s
  else if s.building then
    (addTo s.blobs s.index s.start y (c - s.start)).map (fun bs => { s with blobs := bs, building := false })
  else .ok s

/-- One row, BlobIndex.h:270-303. -/
def scanRow (lab : Pos → Nat) (comp : Nat → Nat) (W : Nat) (blobs : List Compressed) (y : Nat) :
    Except Err (List Compressed) := do
  let s ← (List.range W).foldlM (scanPixel lab comp y) { blobs := blobs, building := false, start := 0, index := 0 }
  if s.building then addTo s.blobs s.index s.start y (W - s.start) else .ok s.blobs

/-- What a `BlobIndex` and its output image hold. -/
structure Index where
  image : Pos → Nat
  blobs : List Compressed

/-- The constructor of `BlobIndex`, BlobIndex.h:115-306, for one plane. An empty image has no origin pixel to read. -/
def blobIndex (valid : Pos → Bool) (W H : Nat) : Except Err Index :=
  if W = 0 ∨ H = 0 then .error .ub
  else do
    let s := label valid W H
    let n := s.count                 -- num_vertices: 0 .. count-1
    let k := (reps n s.edges).length -- the number of components
    let bs ← (List.range H).foldlM (scanRow s.lab (component n s.edges) W) (List.replicate (k - 1) Compressed.empty)
    .ok { image := s.lab, blobs := bs }

/-! ### Specification -/

/-- The eight neighbours of a place, and itself. -/
def near (p q : Pos) : Prop := (p.1 - q.1).natAbs ≤ 1 ∧ (p.2 - q.2).natAbs ≤ 1

instance (p q) : Decidable (near p q) := inferInstanceAs (Decidable (_ ∧ _))

/-- A valid pixel of the image. -/
def Valid (valid : Pos → Bool) (W H : Nat) (p : Pos) : Prop := inImage W H p ∧ valid p = true

/-- From p to q one can go through valid pixels, from each to one of its eight neighbours. -/
inductive Linked (V : Pos → Prop) (p : Pos) : Pos → Prop
  | refl : V p → Linked V p p
  | step {q r} : Linked V p q → V r → near q r → Linked V p r

end VW.Blob
