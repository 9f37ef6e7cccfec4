import Verif.Blob.Model
import Verif.View.Subdivide
/-
Model of `BlobIndexThreaded`, src/vw/Image/BlobIndex.h:322-370, 383-452 and BlobIndex.cc:43-58, 140-175, 184-379,
402-546 (property C53).

Tasks append to shared deques under a mutex, so that the only effect of scheduling is the order in which the results of
the tasks are appended: the model takes that order as an argument.

In `absorb` the loop that recomputes the left side reads `front()` of the list of starts of every row, also of rows
without runs, which is undefined behaviour. The model takes as an argument what happens: `none` is undefined behaviour
as an outcome, `some z` is that the value z is read and that moving an iterator past the end in `refactor` (line 47) is
harmless.
-/
namespace VW.Blob
open VW.Grassfire (Pos)
open VW.Block (Rect)

/-! ### absorb -/

/-- The search for a place between runs, BlobIndex.cc:226-252; the first run of the list is the one at
`end_insertion_point`, the second the one at `start_lookahead`. -/
def insertAfter (v : Int × Int) : List (Int × Int) → Except Err (List (Int × Int))
  | [] => .error .ub
  | [s] => if v.1 ≥ s.2 then .ok [s, v] else .error .segmentOrder
  | s :: t :: rest =>
    if v.1 ≥ s.2 ∧ v.2 ≤ t.1 then .ok (s :: v :: t :: rest)
    else (insertAfter v (t :: rest)).map (s :: ·)

/-- Inserting a run in a row, BlobIndex.cc:211-282. (`.segmentOrder` stands for the NoImplErr of line 265.) -/
def insertRun (r : List (Int × Int)) (v : Int × Int) : Except Err (List (Int × Int)) :=
  match r with
  | [] => .ok [v]
  | s :: rest => if v.2 ≤ s.1 then .ok (v :: s :: rest) else insertAfter v (s :: rest)

/-- A row of the victim in the coordinates of this blob. -/
def moved (dx : Int) (r : List (Int × Int)) : List (Int × Int) := r.map (fun s => (s.1 + dx, s.2 + dx))

/-- `refactor` for one row, BlobIndex.cc:43-58: runs that touch become one. -/
def joinRuns : List (Int × Int) → List (Int × Int)
  | [] => []
  | [s] => [s]
  | s :: t :: rest => if t.1 = s.2 then joinRuns ((s.1, t.2) :: rest) else s :: joinRuns (t :: rest)
termination_by l => l.length

/-- The runs of row m of this blob (line 204: only the rows of the victim inside are inserted here). -/
def mergeRow (b v : Compressed) (m : Nat) (r : List (Int × Int)) : Except Err (List (Int × Int)) :=
  let i : Int := (m : Int) - (v.minY - b.minY)
  if 0 ≤ i ∧ i < v.rows.length then (moved (v.minX - b.minX) (v.rows.getD i.toNat [])).foldlM insertRun r else .ok r

/-- The loop over the rows, BlobIndex.cc:197-284 (each row of the victim concerns one row of this blob). -/
def mergeRows (b v : Compressed) : Nat → List (List (Int × Int)) → Except Err (List (List (Int × Int)))
  | _, [] => .ok []
  | m, r :: rs => do
    let r' ← mergeRow b v m r
    let rs' ← mergeRows b v (m + 1) rs
    .ok (r' :: rs')

/-- `front()` of the starts of a row. -/
def front (z : Option Int) (r : List (Int × Int)) : Except Err Int :=
  match r.head?, z with
  | some s, _ => .ok s.1
  | none, some z => .ok z
  | none, none => .error .ub

/-- The smallest start, BlobIndex.cc:362-376: rows before the first with runs are skipped, later ones are not. -/
def lowest (z : Option Int) : List (List (Int × Int)) → Except Err Int
  | [] => .error .ub
  | [] :: rs => lowest z rs
  | (s :: _) :: rs => rs.foldlM (fun low r => (front z r).map (fun f => if f < low then f else low)) s.1

/-- Rows of the victim above this blob, BlobIndex.cc:287-335. -/
def topRows (b v : Compressed) : List (List (Int × Int)) :=
  (List.range (b.minY - v.minY).toNat).map (fun i =>
    if i < v.rows.length then moved (v.minX - b.minX) (v.rows.getD i []) else [])

/-- Rows of the victim below, BlobIndex.cc:337-360; n rows from the height y on are there. -/
def bottomRows (dx y : Int) (n : Nat) (v : Compressed) : List (List (Int × Int)) :=
  let k : Int := n + y - v.minY
  (List.range (v.rows.length - k).toNat).map (fun (i : Nat) =>
    if k + i < 0 then [] else moved dx (v.rows.getD (k + i).toNat []))

/-- `absorb`, BlobIndex.cc:184-379. -/
def absorb (z : Option Int) (b v : Compressed) : Except Err Compressed :=
  if b.rows.isEmpty then .ok { minX := v.minX, minY := v.minY, rows := v.rows }
  else do
    let rows ← mergeRows b v 0 b.rows
    let (rows, minY) := if v.minY < b.minY then (topRows b v ++ rows, v.minY) else (rows, b.minY)
    let rows := if v.rows.length + v.minY > minY + rows.length then rows ++ bottomRows (v.minX - b.minX) minY rows.length v else rows
    let low ← lowest z rows
    let b' := shiftX { minX := b.minX, minY := minY, rows := rows } low
    .ok { b' with rows := b'.rows.map joinRuns }

/-! ### Blobs side by side -/

/-- The end of the last run of a row of the left blob is where the first run of row k of the right blob starts,
BlobIndex.cc:147-150. (Rows without runs, where the code has undefined behaviour, do not touch here; the blobs of a tile
have none.) -/
def touches (lx : Int) (row : List (Int × Int)) (r : Compressed) (k : Int) : Bool :=
  0 ≤ k && k < r.rows.length &&
    (match row.getLast?, (r.rows.getD k.toNat []).head? with
     | some e, some s => e.2 + lx == s.1 + r.minX
     | _, _ => false)

/-- The loop of `is_on_right`, from row k of the right blob on. -/
def onRight (lx : Int) (r : Compressed) : List (List (Int × Int)) → Int → Bool
  | [], _ => false
  | row :: rows, k =>
    if k < r.rows.length then
      (touches lx row r k || touches lx row r (k + 1) || touches lx row r (k + 2)) || onRight lx r rows (k + 1)
    else false

/-- `is_on_right`, BlobIndex.cc:140-162. -/
def isOnRight (l r : Compressed) : Bool := onRight l.minX r l.rows (l.minY - r.minY - 1)

/-- `is_on_bottom`, BlobIndex.cc:164-182. -/
def isOnBottom (u d : Compressed) : Bool :=
  if d.minY ≠ u.minY + u.rows.length then false
  else ((u.rows.getLast?).getD []).any (fun t => ((d.rows.head?).getD []).any (fun s =>
    decide (t.2 + u.minX ≥ s.1 + d.minX) && decide (t.1 + u.minX ≤ s.2 + d.minX)))

/-! ### Tiles -/

/-- `BlobIndexTask`, BlobIndex.h:346-370: the blobs of a tile, moved to the place of the tile. -/
def tileBlobs (valid : Pos → Bool) (tile : Rect) : Except Err (List Compressed) :=
  (blobIndex (fun p => valid (p.1 + tile.x0, p.2 + tile.y0)) (tile.x1 - tile.x0).toNat (tile.y1 - tile.y0).toNat).map
    (fun ix => ix.blobs.map (fun b => { b with minX := b.minX + tile.x0, minY := b.minY + tile.y0 }))

/-- A bounding box. -/
structure Box where
  x0 : Int
  y0 : Int
  x1 : Int
  y1 : Int
deriving DecidableEq

/-- The boxes the tasks store: `bindex.blob(i).bounding_box() + m_bbox.min()` (BlobIndex.h:361), the bounding box of the
moved blob. -/
def boxOf (b : Compressed) : Box :=
  ⟨(boundingBox b).1, (boundingBox b).2.1, (boundingBox b).2.2.1, (boundingBox b).2.2.2⟩

/-- Division lines, BlobIndex.cc:471-477 (with an exact quotient). -/
def divisions (size t : Nat) : List Int := (List.range ((size + t - 1) / t - 1)).map (fun (i : Nat) => (t : Int) * ((i : Int) + 1))

/-- Pairs joined at a vertical line, BlobIndex.cc:487-508. -/
def xEdges (bs : List Compressed) (x : Int) : List (Nat × Nat) :=
  let bx : Nat → Box := fun i => boxOf (bs.getD i .empty)
  let left := (List.range bs.length).filter (fun i => (bx i).x1 == x)
  let right := (List.range bs.length).filter (fun i => (bx i).x1 != x && (bx i).x0 == x)
  left.flatMap (fun l => (right.filter (fun r =>
    decide ((bx l).y1 + 1 ≥ (bx r).y0) && decide ((bx r).y1 + 1 ≥ (bx l).y0) &&
    isOnRight (bs.getD l .empty) (bs.getD r .empty))).map (fun r => (l, r)))

/-- Pairs joined at a horizontal line, BlobIndex.cc:510-532. -/
def yEdges (bs : List Compressed) (y : Int) : List (Nat × Nat) :=
  let bx : Nat → Box := fun i => boxOf (bs.getD i .empty)
  let up := (List.range bs.length).filter (fun i => (bx i).y1 == y)
  let down := (List.range bs.length).filter (fun i => (bx i).y1 != y && (bx i).y0 == y)
  up.flatMap (fun u => (down.filter (fun d =>
    decide ((bx u).x1 + 1 ≥ (bx d).x0) && decide ((bx d).x1 + 1 ≥ (bx u).x0) &&
    isOnBottom (bs.getD u .empty) (bs.getD d .empty))).map (fun d => (u, d)))

/-- The graph of `consolidate`. -/
def joins (bs : List Compressed) (W H t : Nat) : List (Nat × Nat) :=
  (bs.length - 1, bs.length - 1) :: ((divisions W t).flatMap (xEdges bs) ++ (divisions H t).flatMap (yEdges bs))

/-- The size limit of a component, BlobIndex.cc:441-451 (sizes are not negative, so that the sum at the early exit is too
large iff the whole is). -/
def tooLarge (maxArea : Int) (parts : List Compressed) : Bool :=
  maxArea > 0 && decide ((parts.map size).sum > maxArea)

/-- One component, BlobIndex.cc:437-462. -/
def absorbAll (z : Option Int) (parts : List Compressed) : Except Err Compressed := parts.foldlM (absorb z) .empty

/-- `ConsolidateAbsorbTask`, BlobIndex.cc:422-468, for the components of a list of numbers. -/
def absorbTask (z : Option Int) (maxArea : Int) (bs : List Compressed) (comp : Nat → Nat) (ks : List Nat) :
    Except Err (List Compressed) :=
  (((ks.map (fun k => (List.range bs.length).filter (fun i => comp i == k))).map (fun is => is.map (fun i => bs.getD i .empty))).filter
    (fun parts => ! tooLarge maxArea parts)).mapM (absorbAll z)

/-- The components of job j of J, BlobIndex.cc:547-549. -/
def jobRange (n J j : Nat) : List Nat := List.range' (n * j / J) (n * (j + 1) / J - n * j / J)

/-- `consolidate`, BlobIndex.cc:465-560; the tasks end in the order of jobs. Without any blob the graph gets an edge to
the vertex number 2^64-1. -/
def consolidate (z : Option Int) (maxArea : Int) (W H t J : Nat) (jobs : List Nat) (bs : List Compressed) :
    Except Err (List Compressed) :=
  if bs.length = 0 then .error .ub
  else do
    let es := joins bs W H t
    let n := (reps bs.length es).length
    let rs ← jobs.mapM (fun j => absorbTask z maxArea bs (component bs.length es) (jobRange n J j))
    .ok rs.flatten

/-- The culling loop, BlobIndex.h:440-449. To erase the first blob moves an iterator before the start. -/
def cull (z : Option Int) (maxArea : Int) (bs : List Compressed) : Except Err (List Compressed) :=
  if maxArea > 0 then
    match bs.head?, z with
    | some b, none => if size b > maxArea then .error .ub else .ok (bs.filter (fun b => ! decide (size b > maxArea)))
    | _, _ => .ok (bs.filter (fun b => ! decide (size b > maxArea)))
  else .ok bs

/-- What the index holds. -/
structure Threaded where
  blobs : List Compressed
  boxes : List Box
deriving DecidableEq

/-- The constructor of `BlobIndexThreaded`, BlobIndex.h:401-450; the tasks of the tiles end in the given order. -/
def threaded (z : Option Int) (valid : Pos → Bool) (W H t : Nat) (maxArea : Int) (order : List Rect) (J : Nat) (jobs : List Nat) :
    Except Err Threaded := do
  let bs := (← order.mapM (tileBlobs valid)).flatten
  if order.length > 1 then
    let cs ← consolidate z maxArea W H t J jobs bs
    .ok { blobs := ← cull z maxArea cs, boxes := cs.map boxOf }
  else
    .ok { blobs := ← cull z maxArea bs, boxes := bs.map boxOf }

/-- `wipe_big_blobs`, BlobIndex.h:456-475; the erasure of the first blob as in `cull`. -/
def wipeBig (z : Option Int) (maxSize : Int) (T : Threaded) : Except Err Threaded :=
  let big : Compressed → Bool := fun b =>
    decide ((boxOf b).x1 - (boxOf b).x0 > maxSize) || decide ((boxOf b).y1 - (boxOf b).y0 > maxSize)
  let keep := T.blobs.filter (fun b => ! big b)
  match T.blobs.head?, z with
  | some b, none => if big b then .error .ub else .ok { blobs := keep, boxes := keep.map boxOf }
  | _, _ => .ok { blobs := keep, boxes := keep.map boxOf }

/-- The tiles of an image. -/
def tiles (W H t : Nat) : List Rect := VW.View.subdivide ⟨0, 0, W, H⟩ t t true false

end VW.Blob
